import Verif.System.LearningServer
import Verif.System.BookSpec
import Verif.Hub.Pages

/-! # Lemmas: a server with a PPM component that learns is a book -/

namespace Mozolm.System
open Mozolm.Hub Mozolm.Server
open Mozolm.Ppm (Keeps Memory)
variable {encode : Int → Str} {fuel : Nat} {o : Ppm.Options XR} {K : Nat} {M : Memory} {ctxs : List (List Int)} {m0 m : Ppm.Model Arith.xr}
  {orderN : List (Int × Nat) → List (Int × Nat)} {orderV : List (Str × XR) → List (Str × XR)}
  {h h' : Hub Arith.xr (Component Arith.xr)} {j : Nat} {b : Book}

/-- The table is that of the book. -/
structure Booked (j : Nat) (ctxs : List (List Int)) (b : Book) (h : Hub Arith.xr (Component Arith.xr)) : Prop where
  indexed : Indexed h (b.pages.map Page.text)
  names : ∀ (i : Nat) (p : Page), b.pages[i]? = some p → NameAt j ctxs p.ctx h i
  first : b.pages[0]? = some Page.first
  ghost : h.selfRecycled = false

theorem sourceText_page {b : Book} (s : Int) : sourceText (b.pages.map Page.text) s = (b.page s).text := by
  unfold sourceText Book.page
  split
  · rfl
  · rw [List.getElem?_map]
    cases b.pages[s.toNat]? <;> rfl

theorem Booked.source (hb : Booked j ctxs b h) (s : Int) : b.pages[Hub.source h s]? = some (b.page s) := by
  have h1 := hb.indexed.len
  rw [List.length_map] at h1
  unfold Hub.source Book.page Hub.valid
  by_cases h0 : s < 0
  · rw [if_neg (by simp; omega), if_pos h0]; exact hb.first
  · rw [if_neg h0]
    by_cases h2 : s.toNat < b.pages.length
    · rw [if_pos (by simp [h1]; omega), List.getElem?_eq_getElem h2]; rfl
    · have e : (b.pages[s.toNat]?).getD Page.first = Page.first := by rw [List.getElem?_eq_none (by omega)]; rfl
      rw [e, if_neg (by simp [h1]; omega)]; exact hb.first

theorem turn_memory (a : Ppm.Alphabet) (b : Book) (p : Page) (c : Int) : (b.turn a p c).1.memory = b.memory := by
  unfold Book.turn; split <;> rfl

theorem read_memory (a : Ppm.Alphabet) (cs : List Int) : ∀ (b : Book) (p : Page), (b.read a p cs).1.memory = b.memory := by
  induction cs with
  | nil => intro b p; rfl
  | cons c cs ih => intro b p; exact (ih _ _).trans (turn_memory _ _ _ _)

theorem turn_texts (a : Ppm.Alphabet) (b : Book) (p : Page) (c : Int) :
    (b.turn a p c).1.pages.map Page.text = visit (b.pages.map Page.text) p.text c ∧ (b.turn a p c).2.text = p.text ++ [c] := by
  unfold Book.turn visit
  split
  · next q hq =>
    have h1 := List.mem_of_find?_eq_some hq
    have h2 := List.find?_some hq
    simp only [decide_eq_true_eq] at h2
    rw [if_pos (by rw [← h2]; exact List.mem_map_of_mem h1)]
    exact ⟨rfl, h2⟩
  · next hq =>
    rw [if_neg]
    · simp
    · intro hm
      obtain ⟨q, q1, q2⟩ := List.mem_map.1 hm
      have := List.find?_eq_none.1 hq q q1
      simp [q2] at this

theorem read_texts (a : Ppm.Alphabet) (cs : List Int) : ∀ (b : Book) (p : Page),
    (b.read a p cs).1.pages.map Page.text = visits (b.pages.map Page.text) p.text cs ∧ (b.read a p cs).2.text = p.text ++ cs := by
  induction cs with
  | nil => intro b p; exact ⟨rfl, by simp [Book.read]⟩
  | cons c cs ih =>
    intro b p
    obtain ⟨a1, a2⟩ := turn_texts a b p c
    obtain ⟨b1, b2⟩ := ih (b.turn a p c).1 (b.turn a p c).2
    simp only [Book.read, visits]
    rw [b1, b2, a1, a2]
    exact ⟨rfl, by simp⟩

theorem turn_prefix (a : Ppm.Alphabet) (b : Book) (p : Page) (c : Int) : b.pages <+: (b.turn a p c).1.pages := by
  unfold Book.turn; split
  · exact List.prefix_rfl
  · exact List.prefix_append _ _

theorem read_prefix (a : Ppm.Alphabet) (cs : List Int) : ∀ (b : Book) (p : Page), b.pages <+: (b.read a p cs).1.pages := by
  induction cs with
  | nil => intro b p; exact List.prefix_rfl
  | cons c cs ih => intro b p; exact (turn_prefix a b p c).trans (ih _ _)

theorem NameAt.keep {c : List Int} {k : Nat} (hk : Keep h h') (hn : NameAt j ctxs c h k) : NameAt j ctxs c h' k := by
  obtain ⟨st, q, e1, e2, e3⟩ := hn
  obtain ⟨st', f1, f2, _⟩ := hk k st e1
  exact ⟨st', q, f1, by simp only [HubState.modelState, f2]; exact e2, e3⟩

/-- Turning a page. -/
theorem Booked.turn (hf : (env Arith.xr encode fuel orderN orderV).Fair) (ha : o.alpha ≠ .nan) (hbt : o.beta ≠ .nan)
    (hi : Ppm.Initial Arith.xr Ppm.OkR o m0) (hs : o.static = false) (hr : Ready encode fuel orderN orderV K m0 j b.memory ctxs h)
    (hb : Booked j ctxs b h) {s c r : Int} (hc : 0 ≤ c) (he : nextState (genv encode fuel orderN orderV) h s c = .ok (r, h'))
    (hroom : (b.turn (Ppm.alphabet m0.symbols encode) (b.page s) c).1.pages.length ≤ h.max) :
    Ready encode fuel orderN orderV K m0 j b.memory ctxs h' ∧
    Booked j ctxs (b.turn (Ppm.alphabet m0.symbols encode) (b.page s) c).1 h' ∧ h'.max = h.max ∧
    ∃ k : Nat, r = k ∧ (b.turn (Ppm.alphabet m0.symbols encode) (b.page s) c).1.pages[k]? =
      some (b.turn (Ppm.alphabet m0.symbols encode) (b.page s) c).2 := by
  have hfg : (genv encode fuel orderN orderV).Fair := hf.guard
  obtain ⟨r', h1, e1, out⟩ := nextState_out hfg hr.own.inv s c
  rw [he] at e1; cases e1
  have g := out.good hfg hr.own.inv
  have hr' := hr.touches hf ha hbt hi hs g out.touches
  obtain ⟨t1, t2⟩ := turn_texts (Ppm.alphabet m0.symbols encode) b (b.page s) c
  have hroom' : (visit (b.pages.map Page.text) (sourceText (b.pages.map Page.text) s) c).length ≤ h.max := by
    rw [sourceText_page, ← t1, List.length_map]; exact hroom
  obtain ⟨x1, k, rfl, hk⟩ := out.indexed hfg hr.own.inv hc hb.indexed hroom'
  obtain ⟨p1, p2, p3⟩ := out.page hfg hr.own.inv hc hb.indexed hroom'
  rw [sourceText_page] at x1 hk p3
  rw [← t1] at x1 hk
  have hfirst : (b.turn (Ppm.alphabet m0.symbols encode) (b.page s) c).1.pages[0]? = some Page.first := by
    obtain ⟨tl, e⟩ := turn_prefix (Ppm.alphabet m0.symbols encode) b (b.page s) c
    rw [← e, List.getElem?_append_left (lt_of_getElem?_eq_some hb.first)]; exact hb.first
  have hnames : ∀ (i : Nat) (p : Page), (b.turn (Ppm.alphabet m0.symbols encode) (b.page s) c).1.pages[i]? = some p → NameAt j ctxs p.ctx h' i := by
    intro i p hp
    unfold Book.turn at hp
    split at hp
    · exact (hb.names i p hp).keep p1
    · next hq =>
      simp only at hp
      rcases Nat.lt_or_ge i b.pages.length with hlt | hge
      · rw [List.getElem?_append_left hlt] at hp
        exact (hb.names i p hp).keep p1
      · rw [List.getElem?_append_right hge] at hp
        have hil : i = b.pages.length := by
          have := lt_of_getElem?_eq_some hp
          simp at this; omega
        subst hil
        simp only [Nat.sub_self, List.getElem?_cons_zero, Option.some.injEq] at hp
        subst hp
        have hnm : (b.page s).text ++ [c] ∉ b.pages.map Page.text := by
          intro hm
          obtain ⟨q, q1, q2⟩ := List.mem_map.1 hm
          have := List.find?_eq_none.1 hq q q1
          simp [q2] at this
        obtain ⟨st, vst, s1, s2, s3⟩ := p3 hnm
        rw [List.length_map] at s2
        obtain ⟨st0, x, n1, n2, n3⟩ := hb.names _ _ (hb.source s)
        rw [s1] at n1; cases n1
        obtain ⟨m, m1, m2⟩ := hr.holds
        obtain ⟨t, m', k1, _, k3⟩ := keeps_next (fuel := fuel) ha hbt hi m2 n3 c
        have hat := hr.own.at s1 j _ m1
        rw [Nat.zero_add] at hat
        have hn := nextAll_fst (genv encode fuel orderN orderV).toLMOps st c 0 h.models m1
        rw [Nat.zero_add] at hn
        have hgd : (genv encode fuel orderN orderV).toLMOps.next (.ppm m) (st.modelState j) c = next encode fuel (.ppm m) (st.modelState j) c := by
          simp only [genv, Env.guard, LMOps.guard]; rw [if_pos hat]; rfl
        rw [hgd, n2, k1] at hn
        refine ⟨vst, t, s2, ?_, k3⟩
        simp only [HubState.modelState, s3, hn]
  refine ⟨hr', ⟨x1, hnames, hfirst, p2.trans hb.ghost⟩, g.const.max, k, rfl, ?_⟩
  -- the page reached
  obtain ⟨q, hq⟩ := exists_getElem?_of_lt (l := (b.turn (Ppm.alphabet m0.symbols encode) (b.page s) c).1.pages) (i := k)
    (by have := lt_of_getElem?_eq_some hk; simpa using this)
  have hmem : (b.turn (Ppm.alphabet m0.symbols encode) (b.page s) c).2 ∈ (b.turn (Ppm.alphabet m0.symbols encode) (b.page s) c).1.pages := by
    unfold Book.turn; split
    · next q hq => exact List.mem_of_find?_eq_some hq
    · simp
  obtain ⟨k', hk'⟩ := List.mem_iff_getElem?.1 hmem
  have hkk : k = k' := by
    refine nodup_get x1.nodup hk ?_
    rw [List.getElem?_map, hk']
    simp only [Option.map_some, t2]
  rw [hkk]; exact hk'

theorem page_get {b : Book} {k : Nat} {q : Page} (h : b.pages[k]? = some q) : b.page (k : Int) = q := by
  unfold Book.page
  rw [if_neg (by omega), Int.toNat_natCast, h]; rfl

/-- Reading along a text. -/
theorem Booked.read (hf : (env Arith.xr encode fuel orderN orderV).Fair) (ha : o.alpha ≠ .nan) (hbt : o.beta ≠ .nan)
    (hi : Ppm.Initial Arith.xr Ppm.OkR o m0) (hs : o.static = false) {cs : List Int} (hcs : ∀ c ∈ cs, 0 ≤ c) :
    ∀ {h h' : Hub Arith.xr (Component Arith.xr)} {b : Book} {s r : Int}, Ready encode fuel orderN orderV K m0 j b.memory ctxs h →
    Booked j ctxs b h → contextLoop (genv encode fuel orderN orderV) h s cs = .ok (r, h') →
    (b.read (Ppm.alphabet m0.symbols encode) (b.page s) cs).1.pages.length ≤ h.max →
    Ready encode fuel orderN orderV K m0 j b.memory ctxs h' ∧
    Booked j ctxs (b.read (Ppm.alphabet m0.symbols encode) (b.page s) cs).1 h' ∧ h'.max = h.max ∧
    ((cs ≠ [] ∨ 0 ≤ s ∧ s < b.pages.length) → ∃ k : Nat, r = k ∧
      (b.read (Ppm.alphabet m0.symbols encode) (b.page s) cs).1.pages[k]? = some (b.read (Ppm.alphabet m0.symbols encode) (b.page s) cs).2) := by
  induction cs with
  | nil =>
    intro h h' b s r hr hb he _
    simp only [contextLoop, Except.ok.injEq, Prod.mk.injEq] at he
    obtain ⟨rfl, rfl⟩ := he
    refine ⟨hr, hb, rfl, fun hv => ?_⟩
    obtain ⟨h0, h1⟩ := hv.resolve_left (fun e => e rfl)
    have h2 := hb.source s
    have h3 := source_valid (h := h) h0 (by rw [hb.indexed.len, List.length_map]; exact h1)
    exact ⟨Hub.source h s, h3.symm, h2⟩
  | cons c cs ih =>
    intro h h' b s r hr hb he hroom
    have hc := hcs c (by simp)
    simp only [contextLoop] at he
    obtain ⟨⟨r1, h1⟩, e1, e2⟩ := bind_ok.1 he
    simp only [Book.read] at hroom ⊢
    have hle := (read_prefix (Ppm.alphabet m0.symbols encode) cs (b.turn (Ppm.alphabet m0.symbols encode) (b.page s) c).1
      (b.turn (Ppm.alphabet m0.symbols encode) (b.page s) c).2).length_le
    obtain ⟨a1, a2, a3, k, rfl, hk⟩ := hb.turn hf ha hbt hi hs hr hc e1 (by omega)
    simp only [if_neg (show ¬ ((k : Int) < 0) by omega)] at e2
    have hpg := page_get hk
    have hm := turn_memory (Ppm.alphabet m0.symbols encode) b (b.page s) c
    rw [← hm] at a1
    obtain ⟨b1, b2, b3, b4⟩ := ih (fun c' h' => hcs c' (by simp [h'])) a1 a2 e2 (by rw [hpg, a3]; exact hroom)
    rw [hpg] at b2 b4
    rw [hm] at b1
    exact ⟨b1, b2, b3.trans a3, fun _ => b4 (.inr ⟨by omega, by have := lt_of_getElem?_eq_some hk; omega⟩)⟩

theorem isPath_unique {A : Arith} {σ : Type} {h : Hub A σ} {cs : List Int} : ∀ {s a b : Nat}, IsPath h s cs a → IsPath h s cs b → a = b := by
  induction cs with
  | nil => intro s a b h1 h2; cases h1; exact h2
  | cons c cs ih =>
    intro s a b ⟨st, k, e1, e2, e3⟩ ⟨st', k', f1, f2, f3⟩
    rw [e1] at f1; cases f1
    rw [e2] at f2; cases f2
    exact ih e3 f3

theorem after_text (a : Ppm.Alphabet) (M : Memory) (p : Page) (cs : List Int) (q : Page) : (Page.after a M p cs q).text = q.text := by
  unfold Page.after; split <;> rfl

/-- `UpdateLMCounts` after the states are provided. -/
theorem update_ensured {A : Arith} {σ : Type} {E : Env A σ} {h h1 : Hub A σ} {s t : Nat} {cs : List Int} {n : Int}
    (he : ensureStates E h s cs = .ok h1) (hp : IsPath h1 s cs t) (hv : h.valid (s : Int) = h1.valid (s : Int)) :
    updateLMCounts E h s cs n = updateLMCounts E h1 s cs n := by
  simp only [updateLMCounts, he, ensureStates_path hp, ok_bind, hv]

/-- Counting at a page. -/
theorem Booked.count (hf : (env Arith.xr encode fuel orderN orderV).Fair) (ha : o.alpha ≠ .nan) (hbt : o.beta ≠ .nan)
    (hi : Ppm.Initial Arith.xr Ppm.OkR o m0) (hs : o.static = false) {cs : List Int} (hcs : ∀ c ∈ cs, 0 ≤ c)
    (hr : Ready encode fuel orderN orderV K m0 j b.memory ctxs h) (hb : Booked j ctxs b h) {s : Nat} (hlt : s < b.pages.length)
    {n : Int} {u : Bool} (he : updateLMCounts (genv encode fuel orderN orderV) h s cs n = .ok (u, h'))
    (hroom : (b.read (Ppm.alphabet m0.symbols encode) (b.page s) cs).1.pages.length ≤ h.max) :
    ∃ ctxs', u = true ∧ Ready encode fuel orderN orderV K m0 j (b.count K (Ppm.alphabet m0.symbols encode) s cs n).memory ctxs' h' ∧
      Booked j ctxs' (b.count K (Ppm.alphabet m0.symbols encode) s cs n) h' := by
  have hfg : (genv encode fuel orderN orderV).Fair := hf.guard
  obtain ⟨r, h1, e1, g1, _⟩ := contextLoop_ok hfg hr.own.inv (s : Int) cs
  obtain ⟨a1, a2, a3, a4⟩ := Booked.read hf ha hbt hi hs hcs hr hb e1 hroom
  obtain ⟨t, rfl, ht⟩ := a4 (.inr ⟨by omega, by omega⟩)
  obtain ⟨t1, t2⟩ := read_texts (Ppm.alphabet m0.symbols encode) cs b (b.page s)
  have hpre := read_prefix (Ppm.alphabet m0.symbols encode) cs b (b.page s)
  have hmem := read_memory (Ppm.alphabet m0.symbols encode) cs b (b.page s)
  have hps : b.pages[s]? = some (b.page s) := by
    have h2 := hb.source s
    have h3 := source_valid (h := h) (s := (s : Int)) (by omega) (by rw [hb.indexed.len, List.length_map]; omega)
    have h4 : Hub.source h s = s := by omega
    rw [h4] at h2
    exact h2
  generalize hbr : (b.read (Ppm.alphabet m0.symbols encode) (b.page s) cs).1 = b1 at *
  generalize hqr : (b.read (Ppm.alphabet m0.symbols encode) (b.page s) cs).2 = q1 at *
  have hps1 : b1.pages[s]? = some (b.page s) := by
    obtain ⟨tl, e⟩ := hpre
    rw [← e, List.getElem?_append_left hlt]; exact hps
  have hst : (b1.pages.map Page.text)[s]? = some (b.page s).text := by rw [List.getElem?_map, hps1]; rfl
  have htt : (b1.pages.map Page.text)[t]? = some ((b.page s).text ++ cs) := by rw [List.getElem?_map, ht, Option.map_some, t2]
  have hp := a2.indexed.path cs hst htt
  have hens : ensureStates (genv encode fuel orderN orderV) h s cs = .ok h1 := by
    rw [walk_ensure, walk_context hfg hr.own.inv hcs, e1]; rfl
  have hval : h.valid (s : Int) = h1.valid (s : Int) := by
    have l1 := hb.indexed.len
    have l2 := a2.indexed.len
    rw [List.length_map] at l1 l2
    have := hpre.length_le
    unfold Hub.valid
    have c1 : decide ((s : Int) < h.states.length) = true := by rw [decide_eq_true_eq]; omega
    have c2 : decide ((s : Int) < h1.states.length) = true := by rw [decide_eq_true_eq]; omega
    rw [c1, c2]
  rw [update_ensured hens hp hval] at he
  have hn := a2.names s _ hps1
  obtain ⟨M', new, hM, hu, hr2, hg2, gd, hp2, hall⟩ := a1.learn hf ha hbt hi hs a2.ghost hp hn he
  have hx2 : Indexed h' (b1.pages.map Page.text) := by
    have hv := a2.indexed.revisit cs (List.mem_of_getElem? htt)
    have hsrc : sourceText (b1.pages.map Page.text) (s : Int) = (b.page s).text := sourceText_get hst
    have := a2.indexed.update hfg a1.own.inv hcs (s := (s : Int)) (by rw [hsrc, hv, ← a2.indexed.len]; exact a1.own.inv.le)
      (fun _ hl => by rw [hsrc, hv] at hl; exact hl) he
    rw [hsrc, hv] at this
    exact this
  have hMc : (b.count K (Ppm.alphabet m0.symbols encode) s cs n).memory = M' := hM.symm
  have hnames : ∀ (i : Nat) (p : Page), (b.count K (Ppm.alphabet m0.symbols encode) s cs n).pages[i]? = some p →
      NameAt j (ctxs ++ new) p.ctx h' i := by
    intro i p hpi
    simp only [Book.count, hbr, List.getElem?_map] at hpi
    obtain ⟨q, hq, rfl⟩ := Option.map_eq_some_iff.1 hpi
    have hqt : (b1.pages.map Page.text)[i]? = some q.text := by rw [List.getElem?_map, hq]; rfl
    unfold Page.after
    split
    · next hon =>
      obtain ⟨⟨pre, e1⟩, e2⟩ := hon
      rw [← e1, List.prefix_append_right_inj] at e2
      obtain ⟨post, e2⟩ := e2
      obtain ⟨k, k1, k2⟩ := hall pre post e2.symm
      have hpi2 : IsPath h' s pre i := hx2.path pre hst (by rw [e1]; exact hqt)
      rw [isPath_unique hpi2 k1]
      have hd : q.text.drop (b.page s).text.length = pre := by rw [← e1, List.drop_left]
      show NameAt j (ctxs ++ new) (Memory.longest _ (onto _ (q.text.drop (b.page s).text.length) _)) h' k
      rw [hd]
      have hM2 : counted K (Ppm.alphabet m0.symbols encode) b.memory (b.page s).ctx cs n = M' := hM.symm
      rw [hM2]
      exact k2
    · next hoff =>
      obtain ⟨st, x, n1, n2, n3⟩ := a2.names i q hq
      obtain ⟨st', f1, f2⟩ := update_off hfg a2.indexed a1.own.inv a1.linked a2.ghost hst (List.mem_of_getElem? htt) he i q.text hqt
        (fun pre _ hpr e => hoff ⟨by rw [e]; exact List.prefix_append _ _, by rw [e, List.prefix_append_right_inj]; exact hpr⟩) st n1
      refine ⟨st', x, f1, by simp only [HubState.modelState, f2]; exact n2, ?_⟩
      rw [List.getElem?_append_left (lt_of_getElem?_eq_some n3)]; exact n3
  refine ⟨ctxs ++ new, hu, by rw [hMc]; exact hr2, ?_, hnames, ?_, hg2⟩
  · have : (b.count K (Ppm.alphabet m0.symbols encode) s cs n).pages.map Page.text = b1.pages.map Page.text := by
      simp only [Book.count, hbr, List.map_map]
      refine List.map_congr_left fun q _ => after_text _ _ _ _ _
    rw [this]; exact hx2
  · have hfst : b1.pages[0]? = some Page.first := a2.first
    have h0 := hnames 0 _ (by simp only [Book.count, hbr, List.getElem?_map, hfst, Option.map_some]; rfl)
    have hc := h0.unique hr2.zero
    simp only [Book.count, hbr, List.getElem?_map, hfst, Option.map_some, Option.some.injEq]
    have ht := after_text (Ppm.alphabet m0.symbols encode) (counted K (Ppm.alphabet m0.symbols encode) b.memory (b.page s).ctx cs n) (b.page s) cs Page.first
    generalize Page.after (Ppm.alphabet m0.symbols encode) (counted K (Ppm.alphabet m0.symbols encode) b.memory (b.page s).ctx cs n) (b.page s) cs Page.first = pg at *
    cases pg
    simp only [Page.first] at ht hc ⊢
    rw [ht, hc]

theorem read_same (a : Ppm.Alphabet) {b : Book} {p : Page} {cs : List Int} (hv : visits (b.pages.map Page.text) p.text cs = b.pages.map Page.text) :
    (b.read a p cs).1 = b := by
  have h1 := (read_texts a cs b p).1
  have h2 := read_prefix a cs b p
  have h3 := read_memory a cs b p
  rw [hv] at h1
  have h4 := congrArg List.length h1
  rw [List.length_map, List.length_map] at h4
  have h5 := h2.eq_of_length h4.symm
  cases hb : (b.read a p cs).1
  rw [hb] at h3 h5
  simp only at h3 h5
  subst h3
  cases b
  simp only at h5
  subst h5
  rfl

theorem page_out {b : Book} {s : Int} (h : b.pages.length ≤ s) : b.page s = Page.first := by
  unfold Book.page
  rw [if_neg (by omega), List.getElem?_eq_none (by omega)]; rfl

theorem page_neg {b : Book} {s : Int} (h : s < 0) : b.page s = Page.first := if_pos h

theorem Booked.clamp (hb : Booked j ctxs b h) (s : Int) : b.page (if s < 0 then 0 else s) = b.page s := by
  split
  · next h => rw [page_neg h]; exact page_get (k := 0) hb.first
  · rfl

/-- `UpdateLMCounts` at a number that no page has, along texts that have pages. -/
theorem update_refused {A : Arith} {σ : Type} {E : Env A σ} (hf : E.Fair) {h h' : Hub A σ} (hi : Inv h) {s : Int} {cs : List Int} {n : Int} {u : Bool}
    (hcs : ∀ c ∈ cs, 0 ≤ c) (hv : h.valid s = false) (he : updateLMCounts E h s cs n = .ok (u, h')) :
    u = false ∧ ∃ r, contextLoop E h s cs = .ok (r, h') ∨ (∃ h1, contextLoop E h s cs = .ok (r, h1) ∧ h1.valid s = true) := by
  simp only [updateLMCounts, hv] at he
  obtain ⟨h1, e1, he⟩ := bind_ok.1 he
  obtain ⟨h2, e2, he⟩ := bind_ok.1 he
  simp only [Bool.false_eq_true, if_false, Except.ok.injEq, Prod.mk.injEq] at he
  obtain ⟨rfl, rfl⟩ := he
  rw [walk_ensure, walk_context hf hi hcs] at e1
  obtain ⟨⟨r, h3⟩, e3, e4⟩ := bind_ok.1 e1
  cases e4
  refine ⟨rfl, r, ?_⟩
  split at e2
  · cases cs with
    | nil => cases e2; exact .inl e3
    | cons c cs =>
      simp only [historyLoop] at e2
      split at e2
      · cases e2
      · split at e2
        · cases e2
        · next st hst =>
          refine .inr ⟨_, e3, ?_⟩
          have := lt_of_getElem?_eq_some hst
          unfold Hub.valid
          simp only [Bool.and_eq_true, decide_eq_true_eq]; omega
  · cases e2; exact .inl e3

theorem NameAt.setModels {c : List Int} {k : Nat} (hn : NameAt j ctxs c h k) (ms : List (Component Arith.xr)) :
    NameAt j ctxs c { h with models := ms } k := hn

theorem Booked.setModels (hb : Booked j ctxs b h) (ms : List (Component Arith.xr)) : Booked j ctxs b { h with models := ms } :=
  ⟨hb.indexed.same rfl fun _ st' e => ⟨st', e, rfl⟩, fun i p hp => (hb.names i p hp).setModels ms, hb.first, hb.ghost⟩

/-- Looking at a page. -/
theorem Booked.look (hf : (env Arith.xr encode fuel orderN orderV).Fair) (ha : o.alpha ≠ .nan) (hbt : o.beta ≠ .nan)
    (hi : Ppm.Initial Arith.xr Ppm.OkR o m0) (hs : o.static = false) (hr : Ready encode fuel orderN orderV K m0 j M ctxs h)
    (hb : Booked j ctxs b h) {s : Int} {y : Option (LMScores XR)}
    (he : Hub.extractLMScores (genv encode fuel orderN orderV) h s = .ok (y, h')) :
    Ready encode fuel orderN orderV K m0 j M ctxs h' ∧ Booked j ctxs b h' ∧ h'.max = h.max ∧
      (j = 0 → h.weights.length < 2 → Ppm.Totals m0.core.fst m0.chars →
        (∀ (k : Nat) (p : Page), s = k → b.pages[k]? = some p → ∃ r, y = some r ∧ Tells o m0.symbols m0.chars M p.ctx r) ∧
        (h.valid s = false → y = none)) := by
  have g := extract_good hr.own.inv he
  refine ⟨hr.touches hf ha hbt hi hs g (extract_touches' he), ?_, g.const.max, ?_⟩
  · obtain ⟨ms, _, rfl⟩ := extract_states he
    exact hb.setModels ms
  · rintro rfl hw ht
    refine ⟨fun k p e hp => ?_, fun hv => ?_⟩
    · subst e
      obtain ⟨r, h2, e1, e2⟩ := hr.tells ha hbt hi ht hw (hb.names k p hp)
      rw [he] at e1; cases e1
      exact ⟨r, rfl, e2⟩
    · simp only [Hub.extractLMScores, hv, Bool.not_false, if_true] at he
      cases he; rfl

theorem valid_false {A : Arith} {σ : Type} {h : Hub A σ} {s : Int} : h.valid s = false ↔ ¬ (0 ≤ s ∧ s < h.states.length) := by
  rw [← valid_iff, Bool.not_eq_true]

/-- Asking for a state. -/
theorem Booked.state (hf : (env Arith.xr encode fuel orderN orderV).Fair) (ha : o.alpha ≠ .nan) (hbt : o.beta ≠ .nan)
    (hi : Ppm.Initial Arith.xr Ppm.OkR o m0) (hs : o.static = false) (hr : Ready encode fuel orderN orderV K m0 j b.memory ctxs h)
    (hb : Booked j ctxs b h) {text : List Int} {x : Int} (hcs : ∀ c ∈ text, 0 ≤ c) {rep : Reply Int}
    (he : Server.getNextState (env Arith.xr encode fuel orderN orderV) h text x = .ok (rep, h'))
    (hroom : (b.serve K (Ppm.alphabet m0.symbols encode) (.getNextState text x)).pages.length ≤ h.max) :
    Ready encode fuel orderN orderV K m0 j (b.serve K (Ppm.alphabet m0.symbols encode) (.getNextState text x)).memory ctxs h' ∧
      Booked j ctxs (b.serve K (Ppm.alphabet m0.symbols encode) (.getNextState text x)) h' ∧ h'.max = h.max := by
  rw [getNextState_guard hf (closedOn Arith.xr encode fuel) hr.own] at he
  obtain ⟨⟨k, h1⟩, e1, e2⟩ := bind_ok.1 he
  cases e2
  have hz := hb.clamp (toInt32 x)
  obtain ⟨a1, a2, a3, _⟩ := Booked.read hf ha hbt hi hs hcs hr hb e1 (by rw [hz]; exact hroom)
  rw [hz] at a2
  refine ⟨?_, a2, a3⟩
  simp only [Book.serve, read_memory]; exact a1

/-- Asking for scores. -/
theorem Booked.ask (hf : (env Arith.xr encode fuel orderN orderV).Fair) (ha : o.alpha ≠ .nan) (hbt : o.beta ≠ .nan)
    (hi : Ppm.Initial Arith.xr Ppm.OkR o m0) (hs : o.static = false) (hr : Ready encode fuel orderN orderV K m0 j b.memory ctxs h)
    (hb : Booked j ctxs b h) {text : List Int} {x : Int} (hcs : ∀ c ∈ text, 0 ≤ c) {rep : Reply (LMScores XR)}
    (he : Server.getLMScores (env Arith.xr encode fuel orderN orderV) h text x = .ok (rep, h'))
    (hroom : (b.serve K (Ppm.alphabet m0.symbols encode) (.getLMScores text x)).pages.length ≤ h.max) :
    Ready encode fuel orderN orderV K m0 j (b.serve K (Ppm.alphabet m0.symbols encode) (.getLMScores text x)).memory ctxs h' ∧
      Booked j ctxs (b.serve K (Ppm.alphabet m0.symbols encode) (.getLMScores text x)) h' ∧ h'.max = h.max ∧
      (j = 0 → h.weights.length < 2 → Ppm.Totals m0.core.fst m0.chars → Says o m0.symbols m0.chars
        (b.serve K (Ppm.alphabet m0.symbols encode) (.getLMScores text x)).memory (b.says K (Ppm.alphabet m0.symbols encode) (.getLMScores text x)) rep) := by
  have hfg : (genv encode fuel orderN orderV).Fair := hf.guard
  rw [getLMScores_guard hf (closedOn Arith.xr encode fuel) hr.own] at he
  obtain ⟨⟨k, h1⟩, e1, e2⟩ := bind_ok.1 he
  obtain ⟨⟨y, h3⟩, e3, e4⟩ := bind_ok.1 e2
  have e94 : h3 = h' ∧ rep = (match y with | some r => .ok r | none => .invalidArgument) := by
    cases y <;> (cases e4; exact ⟨rfl, rfl⟩)
  obtain ⟨rfl, hrep⟩ := e94
  have hz := hb.clamp (toInt32 x)
  obtain ⟨_, _, e1', g1, _⟩ := contextLoop_ok hfg hr.own.inv (if toInt32 x < 0 then 0 else toInt32 x) text
  have hk := e1'.symm.trans e1
  cases hk
  obtain ⟨a1, a2, a3, a4⟩ := Booked.read hf ha hbt hi hs hcs hr hb e1 (by rw [hz]; exact hroom)
  rw [hz] at a2 a4
  obtain ⟨b1, b2, b3, b4⟩ := Booked.look hf ha hbt hi hs a1 a2 e3
  have hmem : (b.serve K (Ppm.alphabet m0.symbols encode) (.getLMScores text x)).memory = b.memory := read_memory _ _ _ _
  refine ⟨by rw [hmem]; exact b1, b2, b3.trans a3, fun h0 hw ht => ?_⟩
  obtain ⟨c1, c2⟩ := b4 h0 (by rw [g1.const.weights]; exact hw) ht
  rw [hmem]
  simp only [Book.says]
  have hpos := lt_of_getElem?_eq_some hb.first
  split
  · next hout =>
    have hno : y = none := by
      apply c2
      obtain ⟨ht0, hx⟩ := hout
      subst ht0
      simp only [contextState, contextLoop, Except.ok.injEq, Prod.mk.injEq] at e1
      rw [← e1.1, ← e1.2, if_neg (by omega), valid_false, hb.indexed.len, List.length_map]
      omega
    subst hno
    exact hrep
  · next hin =>
    obtain ⟨q, hq, hq2⟩ := a4 (by
      by_cases ht0 : text = []
      · right
        have : ¬ b.pages.length ≤ toInt32 x := fun hn => hin ⟨ht0, hn⟩
        split <;> omega
      · exact .inl ht0)
    obtain ⟨r, hy, hr'⟩ := c1 q _ hq hq2
    subst hy
    exact ⟨r, hrep, hr'⟩

/-- Counting. -/
theorem Booked.update (hf : (env Arith.xr encode fuel orderN orderV).Fair) (ha : o.alpha ≠ .nan) (hbt : o.beta ≠ .nan)
    (hi : Ppm.Initial Arith.xr Ppm.OkR o m0) (hs : o.static = false) (hr : Ready encode fuel orderN orderV K m0 j b.memory ctxs h)
    (hb : Booked j ctxs b h) {cs : List Int} {x n : Int} (hcs : ∀ c ∈ cs, 0 ≤ c) {rep : Reply (LMScores XR)}
    (he : Server.updateLMScores (env Arith.xr encode fuel orderN orderV) h x cs n = .ok (rep, h'))
    (hroom : (b.serve K (Ppm.alphabet m0.symbols encode) (.updateLMScores x cs n)).pages.length ≤ h.max) :
    ∃ ctxs', Ready encode fuel orderN orderV K m0 j (b.serve K (Ppm.alphabet m0.symbols encode) (.updateLMScores x cs n)).memory ctxs' h' ∧
      Booked j ctxs' (b.serve K (Ppm.alphabet m0.symbols encode) (.updateLMScores x cs n)) h' ∧ h'.max = h.max ∧
      (j = 0 → h.weights.length < 2 → Ppm.Totals m0.core.fst m0.chars → Says o m0.symbols m0.chars
        (b.serve K (Ppm.alphabet m0.symbols encode) (.updateLMScores x cs n)).memory (b.says K (Ppm.alphabet m0.symbols encode) (.updateLMScores x cs n)) rep) := by
  have hfg : (genv encode fuel orderN orderV).Fair := hf.guard
  rw [updateLMScores_guard hf (closedOn Arith.xr encode fuel) hr.own] at he
  change Server.updateLMScores (genv encode fuel orderN orderV) h x cs n = .ok (rep, h') at he
  obtain ⟨⟨w, h1⟩, e1, e2⟩ := bind_ok.1 he
  obtain ⟨⟨u, h2⟩, e3, e4⟩ := bind_ok.1 e2
  rw [walk_context hfg hr.own.inv hcs] at e1
  obtain ⟨_, _, e1', g1, _⟩ := contextLoop_ok hfg hr.own.inv (toInt32 x) cs
  have hk := e1'.symm.trans e1
  cases hk
  generalize ha0 : Ppm.alphabet m0.symbols encode = a at *
  have hroom1 : (b.read a (b.page (toInt32 x)) cs).1.pages.length ≤ h.max := by
    refine Nat.le_trans ?_ hroom
    simp only [Book.serve]
    split
    · simp only [Book.count, List.length_map]
      exact (read_prefix _ _ _ _).length_le
    · exact Nat.le_refl _
  subst ha0
  obtain ⟨a1, a2, a3, a4⟩ := Booked.read hf ha hbt hi hs hcs hr hb e1 hroom1
  have hmem := read_memory (Ppm.alphabet m0.symbols encode) cs b (b.page (toInt32 x))
  have hpre := read_prefix (Ppm.alphabet m0.symbols encode) cs b (b.page (toInt32 x))
  have htx := read_texts (Ppm.alphabet m0.symbols encode) cs b (b.page (toInt32 x))
  simp only [Book.serve, Book.says] at hroom ⊢
  generalize (b.read (Ppm.alphabet m0.symbols encode) (b.page (toInt32 x)) cs).1 = b1 at *
  generalize (b.read (Ppm.alphabet m0.symbols encode) (b.page (toInt32 x)) cs).2 = q1 at *
  by_cases hin : 0 ≤ toInt32 x ∧ toInt32 x < b1.pages.length
  · rw [if_pos hin] at hroom
    simp only [if_pos hin]
    obtain ⟨s, hs'⟩ : ∃ s : Nat, toInt32 x = s := ⟨(toInt32 x).toNat, by omega⟩
    rw [hs'] at hin hroom e3 ⊢
    rw [← hmem] at a1
    obtain ⟨ctxs', hu, c1, c2⟩ := Booked.count hf ha hbt hi hs hcs a1 a2 (by omega) e3 (by
      rw [a3]
      simpa [Book.count] using hroom)
    subst hu
    simp only [if_true] at e4
    obtain ⟨⟨y, h3⟩, e5, e6⟩ := bind_ok.1 e4
    have e94 : h3 = h' ∧ rep = (match y with | some r => .ok r | none => .invalidArgument) := by
      cases y <;> (cases e6; exact ⟨rfl, rfl⟩)
    obtain ⟨rfl, hrep⟩ := e94
    have g2 := update_good hfg a1.own.inv e3
    obtain ⟨d1, d2, d3, d4⟩ := Booked.look hf ha hbt hi hs c1 c2 e5
    refine ⟨ctxs', d1, d2, by rw [d3, g2.const.max, a3], fun h0 hw ht => ?_⟩
    obtain ⟨f1, _⟩ := d4 h0 (by rw [g2.const.weights, g1.const.weights]; exact hw) ht
    have hval : cs ≠ [] ∨ 0 ≤ toInt32 x ∧ toInt32 x < b.pages.length := by
      by_cases hc0 : cs = []
      · right
        subst hc0
        have : b1.pages.length = b.pages.length := by
          have := congrArg List.length htx.1
          simpa [visits] using this
        omega
      · exact .inl hc0
    obtain ⟨k, hk1, hk2⟩ := a4 hval
    have hsp := visits_mem (ts := b.pages.map Page.text) cs (t := (b.page (toInt32 x)).text) (by rw [← sourceText_page]; exact hb.indexed.source_mem _)
    obtain ⟨r, hy, hr'⟩ := f1 k (Page.after (Ppm.alphabet m0.symbols encode) (b1.count K (Ppm.alphabet m0.symbols encode) s cs n).memory (b1.page s) cs q1) hk1 (by
      simp only [Book.count]
      rw [List.getElem?_map]
      obtain ⟨tl, e⟩ := read_prefix (Ppm.alphabet m0.symbols encode) cs b1 (b1.page s)
      rw [← e, List.getElem?_append_left (lt_of_getElem?_eq_some hk2), hk2]
      rfl)
    subst hy
    exact ⟨r, hrep, hr'⟩
  · rw [if_neg hin] at hroom
    simp only [if_neg hin]
    have hlen1 : h1.states.length = b1.pages.length := by rw [a2.indexed.len, List.length_map]
    have hv : h1.valid (toInt32 x) = false := by
      rw [valid_false, hlen1]; exact hin
    obtain ⟨hu, r, hcase⟩ := update_refused hfg a1.own.inv hcs hv e3
    subst hu
    simp only [Bool.false_eq_true, if_false, Except.ok.injEq, Prod.mk.injEq] at e4
    obtain ⟨e4a, e4b⟩ := e4
    subst e4b
    have hp1 : b1.page (toInt32 x) = Page.first := by
      by_cases h0 : toInt32 x < 0
      · exact page_neg h0
      · exact page_out (by omega)
    have hp0 : b.page (toInt32 x) = Page.first := by
      by_cases h0 : toInt32 x < 0
      · exact page_neg h0
      · have := hpre.length_le
        exact page_out (by omega)
    rw [hp0] at htx
    have hsame : (b1.read (Ppm.alphabet m0.symbols encode) (b1.page (toInt32 x)) cs).1 = b1 := by
      apply read_same
      rw [hp1, htx.1]
      exact visits_again cs List.prefix_rfl
    have hrd : ∀ hh, contextLoop (genv encode fuel orderN orderV) h1 (toInt32 x) cs = .ok (r, hh) →
        Ready encode fuel orderN orderV K m0 j b1.memory ctxs hh ∧ Booked j ctxs b1 hh ∧ hh.max = h1.max := by
      intro hh ehh
      rw [← hmem] at a1
      obtain ⟨d1, d2, d3, _⟩ := Booked.read hf ha hbt hi hs hcs a1 a2 ehh (by rw [hsame, a3]; exact hroom)
      rw [hsame] at d2
      exact ⟨d1, d2, d3⟩
    rcases hcase with hc | ⟨hh, hc, hvv⟩
    · obtain ⟨d1, d2, d3⟩ := hrd _ hc
      exact ⟨ctxs, d1, d2, d3.trans a3, fun _ _ _ => e4a.symm⟩
    · obtain ⟨_, d2, _⟩ := hrd _ hc
      rw [valid_iff, d2.indexed.len, List.length_map] at hvv
      exact absurd hvv hin

/-- One request. -/
theorem Booked.serve (hf : (env Arith.xr encode fuel orderN orderV).Fair) (ha : o.alpha ≠ .nan) (hbt : o.beta ≠ .nan)
    (hi : Ppm.Initial Arith.xr Ppm.OkR o m0) (hs : o.static = false) (hr : Ready encode fuel orderN orderV K m0 j b.memory ctxs h)
    (hb : Booked j ctxs b h) {r : Request} (hcs : ∀ c ∈ r.text, 0 ≤ c) (he : Server.serve (env Arith.xr encode fuel orderN orderV) h r = .ok h')
    (hroom : (b.serve K (Ppm.alphabet m0.symbols encode) r).pages.length ≤ h.max) :
    ∃ ctxs', Ready encode fuel orderN orderV K m0 j (b.serve K (Ppm.alphabet m0.symbols encode) r).memory ctxs' h' ∧
      Booked j ctxs' (b.serve K (Ppm.alphabet m0.symbols encode) r) h' ∧ h'.max = h.max := by
  cases r with
  | getNextState text s =>
    obtain ⟨⟨y, h2⟩, e1, e2⟩ := bind_ok.1 he
    cases e2
    exact ⟨ctxs, Booked.state hf ha hbt hi hs hr hb hcs e1 hroom⟩
  | getLMScores text s =>
    obtain ⟨⟨y, h2⟩, e1, e2⟩ := bind_ok.1 he
    cases e2
    obtain ⟨a1, a2, a3, _⟩ := Booked.ask hf ha hbt hi hs hr hb hcs e1 hroom
    exact ⟨ctxs, a1, a2, a3⟩
  | updateLMScores s cs n =>
    obtain ⟨⟨y, h2⟩, e1, e2⟩ := bind_ok.1 he
    cases e2
    obtain ⟨ctxs', a1, a2, a3, _⟩ := Booked.update hf ha hbt hi hs hr hb hcs e1 hroom
    exact ⟨ctxs', a1, a2, a3⟩

end Mozolm.System
