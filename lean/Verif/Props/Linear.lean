import Verif.Props.Service
import Verif.Props.Directory
import Verif.Server.LinearSpec

/-!
# C87: state ids for concurrent clients
-/

namespace Mozolm.Server
open Mozolm.Hub

variable {A : Arith} {σ : Type} {env : Env A σ} {h0 : Hub A σ} {w : World A σ} {models : List σ} {cfg : HubConfig A.C}

theorem nodup_key {α β : Type} {l : List (α × β)} (hn : (l.map (·.1)).Nodup) {t : α} {x y : β} (h1 : (t, x) ∈ l) (h2 : (t, y) ∈ l) : x = y := by
  obtain ⟨i, hi, e1⟩ := List.getElem_of_mem h1
  obtain ⟨j, hj, e2⟩ := List.getElem_of_mem h2
  have := (List.getElem_inj (xs := l.map (·.1)) (i := i) (j := j) (h₀ := by simpa using hi) (h₁ := by simpa using hj) hn).1
    (by simp only [List.getElem_map, e1, e2])
  subst this
  rw [e1] at e2
  exact (Prod.mk.inj e2).2

theorem Before.left {α : Type} {l : List α} {x y : α} (h : Before l x y) : x ∈ l := by
  obtain ⟨p, m, q, e⟩ := h; rw [e]; simp

theorem Before.right {α : Type} {l : List α} {x y : α} (h : Before l x y) : y ∈ l := by
  obtain ⟨p, m, q, e⟩ := h; rw [e]; simp

theorem Before.map {α β : Type} {l : List α} {x y : α} (f : α → β) (h : Before l x y) : Before (l.map f) (f x) (f y) := by
  obtain ⟨p, m, q, e⟩ := h
  exact ⟨p.map f, m.map f, q.map f, by rw [e]; simp⟩

theorem map_split {α β : Type} {f : α → β} {l : List α} : ∀ {p : List β} {y : β} {q : List β}, l.map f = p ++ y :: q →
    ∃ p' x q', l = p' ++ x :: q' ∧ p'.map f = p ∧ f x = y ∧ q'.map f = q := by
  intro p y q h
  obtain ⟨p', l', e1, e2, e3⟩ := List.map_eq_append_iff.1 h
  obtain ⟨x, q', e4, e5, e6⟩ := List.map_eq_cons_iff.1 e3
  exact ⟨p', x, q', by rw [e1, e4], e2, e5, e6⟩

theorem split_unique {α : Type} : ∀ {u v u' v' : List α} {z : α}, z ∉ u → z ∉ u' → u ++ z :: v = u' ++ z :: v' → u = u' := by
  intro u
  induction u with
  | nil =>
    intro v u' v' z _ h2 h3
    cases u' with
    | nil => rfl
    | cons y u' => simp only [List.nil_append, List.cons_append, List.cons.injEq] at h3; exact absurd (by simp [h3.1]) h2
  | cons y u ih =>
    intro v u' v' z h1 h2 h3
    cases u' with
    | nil => simp only [List.nil_append, List.cons_append, List.cons.injEq] at h3; exact absurd (by simp [h3.1]) h1
    | cons y' u' =>
      simp only [List.cons_append, List.cons.injEq] at h3
      simp only [List.mem_cons, not_or] at h1 h2
      rw [h3.1, ih h1.2 h2.2 h3.2]

theorem Explains.linear (hw : WReach env h0 w) {order : List (Turn A.D)} (ho : Explains env h0 order w.log w.hub) :
    Linear w.log (order.map fun x => (x.1, x.2.1)) := by
  have back : ∀ t r, (t, r) ∈ (order.map fun x => (x.1, x.2.1)) → ∃ a, (t, r, a) ∈ order := by
    intro t r hm
    obtain ⟨⟨t', r', a⟩, h1, h2⟩ := List.mem_map.1 hm
    simp only [Prod.mk.injEq] at h2
    obtain ⟨rfl, rfl⟩ := h2
    exact ⟨a, h1⟩
  refine ⟨by simpa [Function.comp_def] using ho.once, ?_, ?_, ?_, ?_⟩
  · intro t r hm
    obtain ⟨a, h1⟩ := back _ _ hm
    exact ho.sent _ _ _ h1
  · intro t r a h1 h2
    obtain ⟨r', h3⟩ := ho.got _ _ h2
    rw [hw.winv.sentOne _ _ _ h1 (ho.sent _ _ _ h3)]
    exact List.mem_map.2 ⟨_, h3, rfl⟩
  · intro t r a t' r' h1 h2 hb
    obtain ⟨a1, g1⟩ := back _ _ h1
    obtain ⟨a2, g2⟩ := back _ _ h2
    obtain ⟨r3, g3⟩ := ho.got _ _ hb.left
    have := nodup_key ho.once g1 g3
    simp only [Prod.mk.injEq] at this
    obtain ⟨rfl, rfl⟩ := this
    exact (ho.realTime _ _ _ _ _ _ g1 g2 hb).map fun x : Turn A.D => (x.1, x.2.1)
  · intro t r t' r' a' hb hg
    obtain ⟨p, m, q, e⟩ := hb
    obtain ⟨p', ⟨t1, r1, a1⟩, q', e1, rfl, e3, e4⟩ := map_split e
    obtain ⟨m', ⟨t2, r2, a2⟩, q2, e5, rfl, e7, rfl⟩ := map_split e4
    simp only [Prod.mk.injEq] at e3 e7
    obtain ⟨rfl, rfl⟩ := e3
    obtain ⟨rfl, rfl⟩ := e7
    obtain ⟨r3, g3⟩ := ho.got _ _ hg
    have := nodup_key ho.once g3 (show (t2, r2, a2) ∈ order by rw [e1, e5]; simp)
    simp only [Prod.mk.injEq] at this
    obtain ⟨rfl, rfl⟩ := this
    exact ho.noFuture _ _ _ _ _ _ ⟨p', m', q2, by rw [e1, e5]⟩ hg

/-- **C87** There is an order of the requests that agrees with what the clients know such that each answer a client got is
that of a server that had, one at a time, handled the requests before it. -/
theorem C87_linear (hi : initializeModels env models cfg = .ok (some h0)) (hw : WReach env h0 w) :
    ∃ order, Linear w.log order ∧ Reach env models cfg (order.map (·.2)) w.hub ∧
      ∀ p t r q, order = p ++ (t, r) :: q → ∃ h a h', Reach env models cfg (p.map (·.2)) h ∧ answer env h r = .ok (a, h') ∧
        ∀ a', .got t a' ∈ w.log → a' = a := by
  obtain ⟨order, ho, hr⟩ := C85_reach hi w hw
  refine ⟨_, ho.linear hw, by simpa [Function.comp_def] using hr, fun p t r q e => ?_⟩
  obtain ⟨p', ⟨t1, r1, a1⟩, q', e1, rfl, e3, rfl⟩ := map_split e
  simp only [Prod.mk.injEq] at e3
  obtain ⟨rfl, rfl⟩ := e3
  have hrep := ho.replay
  rw [e1] at hrep
  obtain ⟨h1, h2, k1, k2, _⟩ := hrep.split
  refine ⟨h1, a1, h2, ⟨h0, hi, ?_⟩, k2, fun a' hg => ?_⟩
  · have := k1.serveAll
    simpa [Function.comp_def] using this
  · obtain ⟨r3, g3⟩ := ho.got _ _ hg
    have := nodup_key ho.once g3 (show (t1, r1, a1) ∈ order by rw [e1]; simp)
    simp only [Prod.mk.injEq] at this
    exact this.2

theorem sentRequests_mem {D : Type} {log : List (Event D)} {t : Nat} {r : Request} (h : .sent t r ∈ log) : r ∈ sentRequests log :=
  List.mem_filterMap.2 ⟨_, h, rfl⟩

/-- each call occurs at most once in the order, so the order has no more to visit than what was sent -/
theorem sum_sent {D : Type} (f : Request → Nat) : ∀ (log : List (Event D)) (order : List (Nat × Request)), (order.map (·.1)).Nodup →
    (∀ t r, (t, r) ∈ order → .sent t r ∈ log) → ((order.map (·.2)).map f).sum ≤ ((sentRequests log).map f).sum := by
  intro log
  induction log with
  | nil =>
    intro order _ hs
    cases order with
    | nil => simp
    | cons x _ => exact absurd (hs x.1 x.2 (by simp)) (by simp)
  | cons e log ih =>
    intro order hn hs
    cases e with
    | sent t r =>
      by_cases hm : (t, r) ∈ order
      · obtain ⟨p, q, rfl⟩ := List.append_of_mem hm
        have hn' : ((p ++ q).map (·.1)).Nodup := by
          simp only [List.map_append, List.map_cons] at hn ⊢
          have := List.perm_middle.nodup hn
          rw [List.nodup_cons] at this
          exact this.2
        have hnt : ∀ r', (t, r') ∉ p ++ q := by
          intro r' h'
          simp only [List.map_append, List.map_cons] at hn
          have := List.perm_middle.nodup hn
          rw [List.nodup_cons] at this
          exact this.1 (by rw [← List.map_append]; exact List.mem_map.2 ⟨_, h', rfl⟩)
        have := ih (p ++ q) hn' (fun t' r' h' => by
          have := hs t' r' (by
            rcases List.mem_append.1 h' with h' | h'
            · exact List.mem_append_left _ h'
            · exact List.mem_append_right _ (List.mem_cons_of_mem _ h'))
          rcases List.mem_cons.1 this with h2 | h2
          · cases h2
            exact absurd h' (hnt r)
          · exact h2)
        simp only [sentRequests, List.filterMap_cons, List.map_cons, List.sum_cons, List.map_append, List.sum_append] at this ⊢
        omega
      · have := ih order hn (fun t' r' h' => by
          rcases List.mem_cons.1 (hs t' r' h') with h2 | h2
          · cases h2; exact absurd h' hm
          · exact h2)
        simp only [sentRequests, List.filterMap_cons, List.map_cons, List.sum_cons] at this ⊢
        omega
    | _ =>
      have := ih order hn (fun t' r' h' => by
        rcases List.mem_cons.1 (hs t' r' h') with h2 | h2
        · cases h2
        · exact h2)
      simpa only [sentRequests, List.filterMap_cons] using this

theorem Linear.room {D : Type} {log : List (Event D)} {order : List (Nat × Request)} (hl : Linear log order) {n : Nat} (hfit : RoomFor log n) :
    (directory (order.map (·.2))).length ≤ n := by
  have h1 := directory_room (order.map (·.2)) [[]]
  have h2 := sum_sent (fun r => 2 * r.text.length) log order hl.once hl.sent
  unfold RoomFor at hfit
  unfold directory
  simp only [List.length_cons, List.length_nil] at h1
  omega

theorem Linear.typed {D : Type} {log : List (Event D)} {order : List (Nat × Request)} (hl : Linear log order) (ht : Typed (sentRequests log)) :
    Typed (order.map (·.2)) := by
  intro r hr
  obtain ⟨⟨t, r'⟩, h1, rfl⟩ := List.mem_map.1 hr
  exact ht _ (sentRequests_mem (hl.sent _ _ h1))

theorem directory_prefix (p q : List Request) : directory p <+: directory (p ++ q) := by
  unfold directory
  rw [List.foldl_append]
  exact visitedAll_prefix _ _

theorem answer_next {h h' : Hub A σ} {r : Request} {k : Reply Int} (he : answer env h r = .ok (.state k, h')) :
    ∃ text x, r = .getNextState text x ∧ getNextState env h text x = .ok (k, h') := by
  cases r with
  | getNextState text x =>
    obtain ⟨⟨k1, h1⟩, e1, e2⟩ := bind_ok.1 he
    cases e2
    exact ⟨text, x, rfl, e1⟩
  | getLMScores text x =>
    obtain ⟨⟨k1, h1⟩, e1, e2⟩ := bind_ok.1 he
    cases e2
  | updateLMScores s cs n =>
    obtain ⟨⟨k1, h1⟩, e1, e2⟩ := bind_ok.1 he
    cases e2

/-- **C87** The ids that concurrent clients get: in one list of texts, in which none occurs twice, the id of a text that is
asked for from the start, or from an id that a call for a text had got before, is the place of that text – whichever clients
ask, and whatever is asked and counted in between, if the texts asked and counted fit into the table. -/
theorem C87_names (hf : env.Fair) (hi : initializeModels env models cfg = .ok (some h0)) (hw : WReach env h0 w)
    (ht : Typed (sentRequests w.log)) (hfit : RoomFor w.log (cfgMax cfg)) (hmax : cfgMax cfg < 2 ^ 31) :
    ∃ texts : List (List Int), texts.Nodup ∧ texts[0]? = some [] ∧
      ∀ t text (x : Int) a, .sent t (.getNextState text x) ∈ w.log → .got t a ∈ w.log →
        (x = 0 ∨ ∃ t0 text0 x0, .sent t0 (.getNextState text0 x0) ∈ w.log ∧ text0 ≠ [] ∧
          Before w.log (.got t0 (.state (.ok x))) (.sent t (.getNextState text x))) →
        ∃ (k i : Nat) (u : List Int), a = .state (.ok k) ∧ x = i ∧ texts[i]? = some u ∧ texts[k]? = some (u ++ text) := by
  obtain ⟨order, hl, hr, hm⟩ := C87_linear hi hw
  have hroom := hl.room hfit
  have hty := hl.typed ht
  have root : (directory (order.map (·.2)))[0]? = some [] := prefix_get (visitedAll_prefix _ [[]]) rfl
  -- what the call for a text gets
  have key : ∀ p t text x q a, order = p ++ (t, .getNextState text x) :: q → .got t a ∈ w.log →
      (text ≠ [] ∨ toInt32 x < (directory (p.map (·.2))).length) →
      ∃ k : Nat, a = .state (.ok k) ∧
        (directory (p.map (·.2) ++ [.getNextState text x]))[k]? = some (sourceText (directory (p.map (·.2))) (toInt32 x) ++ text) := by
    intro p t text x q a e hg hx
    obtain ⟨h, a1, h', k1, k2, k3⟩ := hm p t _ q e
    have hpre : p.map (·.2) ++ [.getNextState text x] <+: order.map (·.2) := ⟨q.map (·.2), by rw [e]; simp⟩
    obtain ⟨q', hq'⟩ := hpre
    have hroom' : (directory (p.map (·.2) ++ [.getNextState text x])).length ≤ cfgMax cfg := by
      refine Nat.le_trans (directory_prefix _ q').length_le ?_
      rw [hq']; exact hroom
    obtain ⟨k, h2, g1, g2⟩ := C79_directory hf k1 (text := text) (x := x) (fun r hr => hty r (by rw [← hq']; exact List.mem_append_left _ hr)) hroom' hx
    refine ⟨k, ?_, g2⟩
    rw [k3 _ hg]
    obtain ⟨⟨rep, h3⟩, g3, g4⟩ := bind_ok.1 k2
    rw [g1] at g3
    cases g3
    cases g4
    rfl
  refine ⟨directory (order.map (·.2)), (hr.indexed hf hty hroom).1.nodup, root, fun t text x a hs hg hx => ?_⟩
  obtain ⟨p, q, e⟩ := List.append_of_mem (hl.acknowledged _ _ _ hs hg)
  have hfull : order.map (·.2) = (p.map (·.2) ++ [.getNextState text x]) ++ q.map (·.2) := by rw [e]; simp
  -- the source is in the directory by then
  have hsrc : ∃ (i : Nat) (u : List Int), x = i ∧ (directory (p.map (·.2)))[i]? = some u := by
    rcases hx with rfl | ⟨t0, text0, x0, s0, ne0, hb⟩
    · exact ⟨0, [], rfl, prefix_get (visitedAll_prefix _ [[]]) rfl⟩
    · have m0 := hl.acknowledged _ _ _ s0 hb.left
      obtain ⟨l1, l2, l3, e0⟩ := hl.realTime _ _ _ _ _ m0 (hl.acknowledged _ _ _ hs hg) hb
      have ep : p = l1 ++ (t0, .getNextState text0 x0) :: l2 := by
        have hn := hl.once
        have e1 : p ++ (t, Request.getNextState text x) :: q = (l1 ++ (t0, .getNextState text0 x0) :: l2) ++ (t, .getNextState text x) :: l3 := by
          rw [← e, e0]; simp
        have n1 : (t, Request.getNextState text x) ∉ p := by
          intro hmem
          rw [e, List.map_append, List.nodup_append] at hn
          exact hn.2.2 t (List.mem_map.2 ⟨_, hmem, rfl⟩) t (by simp) rfl
        have n2 : (t, Request.getNextState text x) ∉ l1 ++ (t0, .getNextState text0 x0) :: l2 := by
          intro hmem
          rw [show order = (l1 ++ (t0, Request.getNextState text0 x0) :: l2) ++ (t, Request.getNextState text x) :: l3 by rw [e0]; simp,
            List.map_append, List.nodup_append] at hn
          exact hn.2.2 t (List.mem_map.2 ⟨_, hmem, rfl⟩) t (by simp) rfl
        exact split_unique n1 n2 e1
      obtain ⟨k, g1, g2⟩ := key _ _ _ _ _ _ (show order = l1 ++ (t0, .getNextState text0 x0) :: (l2 ++ (t, .getNextState text x) :: l3) from e0) hb.left (.inl ne0)
      simp only [Answer.state.injEq, Reply.ok.injEq] at g1
      refine ⟨k, _, g1, prefix_get ?_ g2⟩
      rw [ep]
      have := directory_prefix (l1.map (·.2) ++ [.getNextState text0 x0]) (l2.map (·.2))
      simpa using this
  obtain ⟨i, u, rfl, hu⟩ := hsrc
  have hlen : i < (directory (p.map (·.2))).length := lt_of_getElem?_eq_some hu
  have hle : (directory (p.map (·.2))).length ≤ cfgMax cfg := by
    refine Nat.le_trans (directory_prefix _ ([.getNextState text i] ++ q.map (·.2))).length_le ?_
    rw [← List.append_assoc, ← hfull]; exact hroom
  have hz : toInt32 (i : Int) = i := toInt32_of_range (by omega) (by omega)
  obtain ⟨k, g1, g2⟩ := key _ _ _ _ _ _ e hg (.inr (by rw [hz]; omega))
  refine ⟨k, i, u, g1, rfl, ?_, ?_⟩
  · rw [hfull, List.append_assoc]
    exact prefix_get (directory_prefix _ _) hu
  · rw [hz, sourceText_get hu] at g2
    rw [hfull]
    exact prefix_get (directory_prefix _ _) g2

end Mozolm.Server
