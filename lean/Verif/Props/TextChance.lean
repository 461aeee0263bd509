import Verif.NGram.Text
import Verif.Props.Weigh
import Verif.Props.Linear

/-!
# C101: the texts that the client generates with a character n-gram model
-/

namespace Mozolm.System
open Mozolm.Hub Mozolm.Server
variable {encode : Int → Str} {decode : Str → List Int} {sort : List (XR × Str) → List (XR × Str)}

/-- What is asked of the table of a character n-gram model: epsilon first, no label or string twice, no label -1, symbols
not empty, none beginning another one; and at every state something can follow. -/
structure Telling (m : NGram.Model XR) : Prop where
  weighted : NGram.Weighted m.fst
  epsilon : ∃ eps rest, m.symbols = (0, eps) :: rest
  labels : (m.symbols.map Prod.fst).Nodup
  strings : (m.symbols.map Prod.snd).Nodup
  named : ∀ e ∈ m.symbols, e.1 ≠ -1
  written : ∀ e ∈ m.symbols.tail, e.2 ≠ []
  apart : ∀ a ∈ m.symbols.tail, ∀ b ∈ m.symbols.tail, a.2 <+: b.2 → a.2 = b.2
  follows : ∀ s, s < m.fst.states.length → ∀ ps, NGram.Weights m s ps → 0 < ps.sum

theorem read_oov {A : Arith} {src : NGram.Source A.C} {m : NGram.Model A.C} (h : NGram.read A src = .ok (some m)) (hc : NGram.Closed m.fst) :
    m.oov = m.symbols.findLabel NGram.unk := by
  have hfst : ∀ f, src.fst = some f → f.start < f.states.length := by
    intro f hf
    have : m.fst = f := by
      simp only [NGram.read, hf] at h
      split at h
      · cases h
      · split at h
        · cases h
        · obtain ⟨bo, _, h⟩ := bind_ok.1 h
          split at h
          · cases h
          · split at h
            · cases h
            · cases h; rfl
    rw [← this]; exact hc.1
  exact ((NGram.C60_read hfst m).1 h).2.2.2.2.2.1

theorem Telling.tabled {m : NGram.Model XR} (h : Telling m) (hs : Served (A := Arith.xr) encode (.char m)) : NGram.Tabled (A := Arith.xr) m := by
  cases hs with
  | char hr hc ha => exact ⟨hc, ha, read_unigram (A := Arith.xr) hr hc, read_oov (A := Arith.xr) hr hc, h.strings, h.named⟩

theorem walk_moves {fuel : Nat} {m : NGram.Model XR} (hst : ∀ s, s < m.fst.states.length → ∀ c t, c ≠ 0 → NGram.Step encode m s c t →
      NGram.nextState (A := Arith.xr) encode fuel m s c = .ok (t : Int) ∧ t < m.fst.states.length)
    {s t : Nat} {text : List Int} (h : NGram.Moves encode m s text t) (hs : s < m.fst.states.length) :
    System.walk encode fuel (.char m : Component Arith.xr) s text = (.char m, (t : Int)) ∧ t < m.fst.states.length := by
  induction h with
  | nil => exact ⟨rfl, hs⟩
  | @cons s t u c cs hc h1 _ ih =>
    obtain ⟨e, ht⟩ := hst s hs c t hc h1
    have e1 : next encode fuel (.char m : Component Arith.xr) s c = ((t : Int), .char m) := by
      simp only [next, e, settle]
    rw [System.walk, e1]
    exact ih ht

theorem moves_append {C : Type} {m : NGram.Model C} {s t u : Nat} {a b : List Int} (h : NGram.Moves encode m s a t) (h' : NGram.Moves encode m t b u) :
    NGram.Moves encode m s (a ++ b) u := by
  induction h with
  | nil => exact h'
  | cons h0 h1 _ ih => exact .cons h0 h1 (ih h')

/-- The reply that lists the shares. -/
noncomputable def shares (rest : SymbolTable) (ps : List ℝ) : LMScores XR :=
  ⟨[] :: rest.map Prod.snd, ps.map fun p => XR.fin (p / ps.sum), XR.fin 1⟩

/-- A model that speaks says the shares, and goes where the specification goes. -/
theorem speaks_alone {m : NGram.Model XR} (hs : Served (A := Arith.xr) encode (.char m)) (hm : Telling m) {eps : Str} {rest : SymbolTable}
    (ht : m.symbols = (0, eps) :: rest) :
    ∃ bound, ∀ fuel, bound ≤ fuel → ∀ text s, NGram.Moves encode m 0 text s → s < m.fst.states.length ∧
      ∃ ps, NGram.Weights m s ps ∧ (∀ p ∈ ps, 0 ≤ p) ∧ 0 < ps.sum ∧ alone encode fuel (.char m : Component Arith.xr) text = some (shares rest ps) := by
  have htab := hm.tabled hs
  obtain ⟨b1, h1⟩ := NGram.step_next htab encode
  obtain ⟨b2, h2⟩ := NGram.extract_shares htab.closed htab.acyclic hm.weighted ht hm.labels hm.named
  refine ⟨max b1 b2, fun fuel hf text s hmv => ?_⟩
  have h0 : 0 < m.fst.states.length := by have := htab.closed.1; omega
  obtain ⟨e1, e2⟩ := walk_moves (h1 fuel (by omega)) hmv h0
  obtain ⟨ps, g1, g2, g3⟩ := h2 fuel (by omega) s e2
  have hpos := hm.follows s e2 ps g1
  refine ⟨e2, ps, g1, g2, hpos, ?_⟩
  have e3 : System.walk encode fuel (.char m : Component Arith.xr) (start (.char m : Component Arith.xr)) text = (.char m, (s : Int)) := e1
  rw [alone, e3]
  simp only [extract, g3 hpos, settle]
  rfl

theorem Telling.proper {m : NGram.Model XR} (hm : Telling m) {eps : Str} {rest : SymbolTable} (ht : m.symbols = (0, eps) :: rest)
    {s : Nat} {ps : List ℝ} (hw : NGram.Weights m s ps) (hp : ∀ p ∈ ps, 0 ≤ p) (hpos : 0 < ps.sum) : Proper (shares rest ps) := by
  have hlen : ps.length = rest.length + 1 := by
    have := hw.length_eq
    rw [ht] at this
    simpa using this.symm
  have htail : m.symbols.tail = rest := by rw [ht]; rfl
  refine ⟨⟨ps.map fun p => p / ps.sum, ?_, ?_, ?_, ?_⟩, ?_, ?_⟩
  · simp [shares, List.map_map, Function.comp_def]
  · simp [shares, hlen]
  · intro p hp'
    obtain ⟨q, hq, rfl⟩ := List.mem_map.1 hp'
    exact div_nonneg (hp q hq) hpos.le
  · rw [Scores.sum_map_div, div_self hpos.ne']
  · have h1 := hm.strings
    rw [ht, List.map_cons, List.nodup_cons] at h1
    refine List.nodup_cons.2 ⟨fun h => ?_, h1.2⟩
    obtain ⟨e, he, he'⟩ := List.mem_map.1 h
    exact hm.written e (by rw [htail]; exact he) he'
  · intro a ha b hb hne hab
    have key : ∀ x ∈ (shares rest ps).symbols, x = [] ∨ ∃ e ∈ m.symbols.tail, e.2 = x := by
      intro x hx
      rcases List.mem_cons.1 hx with rfl | hx
      · exact .inl rfl
      · obtain ⟨e, he, he'⟩ := List.mem_map.1 hx
        exact .inr ⟨e, by rw [htail]; exact he, he'⟩
    rcases key a ha with rfl | ⟨x, hx, rfl⟩
    · exact absurd rfl hne
    · rcases key b hb with rfl | ⟨y, hy, rfl⟩
      · exact absurd (List.prefix_nil.1 hab) hne
      · exact hm.apart x hx y hy hab

theorem pointwise_zip {α β γ : Type} {R : α → β → Prop} {l : List α} {l' : List β} (h : Pointwise R l l') (g : List β → β → γ) (z : List β) {f : α → Str} :
    ∀ {a b}, R a b → (∀ a' b', a' ∈ l → R a' b' → a' = a → b' = b) → a ∈ l → (g z b, f a) ∈ (l'.map (g z)).zip (l.map f) := by
  induction h with
  | nil => intro a b _ _ h; cases h
  | @cons a0 b0 as bs h0 _ ih =>
    intro a b hab hu ha
    simp only [List.map_cons, List.zip_cons_cons, List.mem_cons]
    rcases List.mem_cons.1 ha with rfl | ha
    · left
      rw [hu a b0 (by simp) h0 rfl]
    · right
      exact ih hab (fun a' b' h1 h2 h3 => hu a' b' (by simp [h1]) h2 h3) ha

/-- The share of a symbol is its probability in the reply. -/
theorem share_listed {m : NGram.Model XR} {eps : Str} {rest : SymbolTable} (ht : m.symbols = (0, eps) :: rest) {s : Nat} {ps : List ℝ}
    (hw : NGram.Weights m s ps) {e : Int × Str} (he : e ∈ (0, ([] : Str)) :: rest) {x : ℝ} (hx : NGram.Share m s e.1 x) : Lists (shares rest ps) e.2 x := by
  obtain ⟨ps', p, h1, h2, rfl⟩ := hx
  have := NGram.weights_unique h1 hw
  subst this
  have hw' : Pointwise (fun (e : Int × Str) p => NGram.Worth m.fst s e.1 p) ((0, ([] : Str)) :: rest) ps' := by
    have key : ∀ {l : List (Int × Str)} {ls : List Int} {ps : List ℝ}, l.map Prod.fst = ls → Pointwise (NGram.Worth m.fst s) ls ps →
        Pointwise (fun (e : Int × Str) p => NGram.Worth m.fst s e.1 p) l ps := by
      intro l ls ps e h
      induction h generalizing l with
      | nil => rw [List.map_eq_nil_iff.1 e]; exact .nil
      | cons a _ ih =>
        cases l with
        | nil => cases e
        | cons y l =>
          simp only [List.map_cons, List.cons.injEq] at e
          rw [← e.1] at a
          exact .cons a (ih e.2)
    refine key ?_ h1
    rw [ht]; rfl
  exact pointwise_zip hw' (fun z p => XR.fin (p / z.sum)) ps' (f := Prod.snd) h2
    (fun a' b' _ h3 h4 => by subst h4; exact h3.unique h2) he

theorem listed_share {m : NGram.Model XR} {eps : Str} {rest : SymbolTable} (ht : m.symbols = (0, eps) :: rest) {s : Nat} {ps : List ℝ}
    (hw : NGram.Weights m s ps) {sym : Str} {x : ℝ} (h : Lists (shares rest ps) sym x) :
    ∃ e ∈ (0, ([] : Str)) :: rest, e.2 = sym ∧ NGram.Share m s e.1 x := by
  have key : ∀ {l : List (Int × Str)} {ls : List Int} {qs : List ℝ}, l.map Prod.fst = ls → Pointwise (NGram.Worth m.fst s) ls qs →
      (XR.fin x, sym) ∈ (qs.map fun p => XR.fin (p / ps.sum)).zip (l.map Prod.snd) → ∃ e ∈ l, e.2 = sym ∧ NGram.Share m s e.1 x := by
    intro l ls qs e h
    induction h generalizing l with
    | nil => intro h; simp at h
    | cons a _ ih =>
      cases l with
      | nil => cases e
      | cons y l =>
        simp only [List.map_cons, List.cons.injEq] at e
        simp only [List.map_cons, List.zip_cons_cons, List.mem_cons, Prod.mk.injEq]
        rintro (⟨h1, h2⟩ | h1)
        · injection h1 with h1
          exact ⟨y, .inl rfl, h2.symm, ps, _, hw, by rw [e.1]; exact a, h1⟩
        · obtain ⟨e', h2, h3⟩ := ih e.2 h1
          exact ⟨e', .inr h2, h3⟩
  exact key (by rw [ht]; rfl) hw h

/-- The generation that the specification gives is that of a fresh server's replies. -/
theorem chain_weighed {m : NGram.Model XR} (hm : Telling m) {eps : Str} {rest : SymbolTable} (ht : m.symbols = (0, eps) :: rest)
    (hdec : ∀ sym, ∀ c ∈ decode sym, 0 ≤ c) {env : Env Arith.xr (Component Arith.xr)} {h0 : Hub Arith.xr (Component Arith.xr)} {N : Nat}
    (hrep : ∀ text s, NGram.Moves encode m 0 text s → (∀ c ∈ text, 0 ≤ c) → text.length < N →
      ∃ ps, NGram.Weights m s ps ∧ (∀ p ∈ ps, 0 ≤ p) ∧ 0 < ps.sum ∧ Replies env h0 text (shares rest ps))
    {s t : Nat} {es : List (Int × Str)} {q : ℝ} (h : NGram.Chain encode decode m s es q t) :
    ∀ text, NGram.Moves encode m 0 text s → (∀ c ∈ text, 0 ≤ c) → text.length + (es.map fun e => (decode e.2).length).sum < N →
      ∃ text', Weighed env decode h0 text (es.map Prod.snd) q text' ∧ NGram.Moves encode m 0 text' t ∧
        text'.length = text.length + (es.map fun e => (decode e.2).length).sum := by
  induction h with
  | nil =>
    intro text hmv hcs hN
    obtain ⟨ps, h1, h2, h3, h4⟩ := hrep text _ hmv hcs (by simpa using hN)
    exact ⟨text, .nil h4 (hm.proper ht h1 h2 h3), hmv, by simp⟩
  | @cons s t u e es p q he hsh hmv' _ ih =>
    intro text hmv hcs hN
    simp only [List.map_cons, List.sum_cons] at hN
    obtain ⟨ps, h1, h2, h3, h4⟩ := hrep text _ hmv hcs (by omega)
    obtain ⟨text', g1, g2, g3⟩ := ih (text ++ decode e.2) (moves_append hmv hmv') (fun c hc => (List.mem_append.1 hc).elim (hcs c) (hdec _ c)) (by simp only [List.length_append]; omega)
    have he' : e ∈ (0, ([] : Str)) :: rest := by
      rw [ht] at he
      exact List.mem_cons_of_mem _ he
    exact ⟨text', .cons h4 (hm.proper ht h1 h2 h3) (hm.written e he) (share_listed ht h1 he' hsh) g1, g2, by simp [g3]; omega⟩

theorem char_replies {m : NGram.Model XR} {ms : List (Component Arith.xr)} (hs : ∀ x ∈ (.char m : Component Arith.xr) :: ms, Served encode x)
    (hm : Telling m) {eps : Str} {rest : SymbolTable} (ht : m.symbols = (0, eps) :: rest) :
    ∃ bound, ∀ fuel, bound ≤ fuel → ∀ orderN orderV, (env Arith.xr encode fuel orderN orderV).Fair →
      ∀ (cfg : HubConfig XR) h0, (cfg.mixture = .none ∨ cfg.weights.length < 2) →
        initializeModels (env Arith.xr encode fuel orderN orderV) ((.char m : Component Arith.xr) :: ms) cfg = .ok (some h0) →
        ∀ text s, (∀ c ∈ text, 0 ≤ c) → NGram.Moves encode m 0 text s → text.length < cfgMax (A := Arith.xr) cfg →
        ∃ ps, NGram.Weights m s ps ∧ (∀ p ∈ ps, 0 ≤ p) ∧ 0 < ps.sum ∧ Replies (env Arith.xr encode fuel orderN orderV) h0 text (shares rest ps) := by
  obtain ⟨b1, h1⟩ := speaks_alone (hs _ List.mem_cons_self) hm ht
  obtain ⟨b2, h2⟩ := replies_alone hs
  refine ⟨max b1 b2, fun fuel hf orderN orderV hfair cfg h0 hcfg i0 text s hch hmv hlen => ?_⟩
  obtain ⟨_, ps, g1, g2, g3, g4⟩ := h1 fuel (by omega) text s hmv
  exact ⟨ps, g1, g2, g3, (h2 fuel (by omega) orderN orderV hfair cfg h0 hcfg i0 text hch hlen _).2 g4⟩

theorem directory_pos (reqs : List Request) : 1 ≤ (directory reqs).length := by
  have h : directory [] <+: directory reqs := directory_prefix [] reqs
  exact h.length_le

/-- **C101** The client generates a text, starting from `ctx`, with a server whose first model is a character n-gram model,
not mixed with the others, which do not learn either; after any requests that leave room in the state table. The text
begins with `ctx` and the symbols exactly with the product of their shares, each after backing off as far as needed at the
state of the text before it; it is exactly this text with the share of the end of the text in addition. -/
theorem C101_generation {m : NGram.Model XR} {ms : List (Component Arith.xr)} (hs : ∀ x ∈ (.char m : Component Arith.xr) :: ms, Served encode x)
    (hfix : ∀ x ∈ ms, Fixed x) (hm : Telling m) (hdec : ∀ sym, ∀ c ∈ decode sym, 0 ≤ c) (hnil : decode [] = []) (hsort : ∀ l, (sort l).Perm l) :
    ∃ bound, ∀ fuel, bound ≤ fuel → ∀ orderN orderV, (env Arith.xr encode fuel orderN orderV).Fair →
      ∀ (cfg : HubConfig XR) h0 reqs h, (cfg.mixture = .none ∨ cfg.weights.length < 2) → cfgMax (A := Arith.xr) cfg ≤ 2 ^ 31 →
        initializeModels (env Arith.xr encode fuel orderN orderV) ((.char m : Component Arith.xr) :: ms) cfg = .ok (some h0) →
        serveAll (env Arith.xr encode fuel orderN orderV) h0 reqs = .ok h → Server.Typed reqs →
        ∀ (ctx : Str) (s : Nat) (es : List (Int × Str)) (q : ℝ) (t : Nat), NGram.Moves encode m 0 (decode ctx) s → NGram.Chain encode decode m s es q t →
        (directory reqs).length + (decode ctx).length + (es.map fun e => (decode e.2).length).sum ≤ cfgMax (A := Arith.xr) cfg →
        (es.map Prod.snd).dropLast.flatten.length < 128 → ∀ (sent : List (Client.Rpc XR)) f, 128 ≤ f →
        uniforms {u | ∃ g w, Client.randGen (A := Arith.xr) (Client.Env.xr sort decode) (service (env Arith.xr encode fuel orderN orderV) decode) f
          ⟨(h, fun i => .fin (u i)), sent⟩ ctx = .ok (g, w) ∧ (ctx ++ (es.map Prod.snd).flatten) <+: g.text} = ENNReal.ofReal q ∧
        ((es.map Prod.snd).flatten.length < 128 → ∀ p, NGram.Share m t 0 p →
          uniforms {u | ∃ w, Client.randGen (A := Arith.xr) (Client.Env.xr sort decode) (service (env Arith.xr encode fuel orderN orderV) decode) f
            ⟨(h, fun i => .fin (u i)), sent⟩ ctx = .ok (⟨true, ctx ++ (es.map Prod.snd).flatten⟩, w)} = ENNReal.ofReal (q * p)) := by
  obtain ⟨eps, rest, ht⟩ := hm.epsilon
  obtain ⟨b1, h1⟩ := char_replies hs hm ht
  have hfix' : ∀ x ∈ (.char m : Component Arith.xr) :: ms, Fixed x := by
    intro x hx
    rcases List.mem_cons.1 hx with rfl | hx
    · trivial
    · exact hfix x hx
  obtain ⟨b2, h2⟩ := C100_generation hs (by simp) hfix' hdec hnil hsort
  refine ⟨max b1 b2, fun fuel hf orderN orderV hfair cfg h0 reqs h hcfg h31 i0 i1 hty ctx s es q t hmv hch hroom hshort sent f hfuel => ?_⟩
  have hd : 1 ≤ (directory reqs).length := directory_pos reqs
  -- the texts are of characters
  have hrep : ∀ text s, NGram.Moves encode m 0 text s → (∀ c ∈ text, 0 ≤ c) → text.length < cfgMax (A := Arith.xr) cfg →
      ∃ ps, NGram.Weights m s ps ∧ (∀ p ∈ ps, 0 ≤ p) ∧ 0 < ps.sum ∧ Replies (env Arith.xr encode fuel orderN orderV) h0 text (shares rest ps) :=
    fun text s a b c => h1 fuel (by omega) orderN orderV hfair cfg h0 hcfg i0 text s b a c
  obtain ⟨ps, g1, g2, g3, g4⟩ := hrep (decode ctx) s hmv (hdec ctx) (by omega)
  obtain ⟨text', w1, w2, w3⟩ := chain_weighed hm ht hdec hrep hch (decode ctx) hmv (hdec ctx) (by omega)
  have hnorm : ¬ XR.le (shares rest ps).norm (.fin 0) := by simp [shares, XR.le]
  have hsum : ((es.map Prod.snd).map fun sym => (decode sym).length) = es.map fun e => (decode e.2).length := by simp [List.map_map, Function.comp_def]
  have key := h2 fuel (by omega) orderN orderV hfair cfg h0 reqs h (fun hi => by
      rcases hcfg with h | h
      · rw [h] at hi; cases hi
      · simp only [List.length_cons]; omega) h31 i0 i1 hty ctx _ g4 hnorm (es.map Prod.snd) q text' w1 (by rw [hsum]; exact hroom) hshort sent f hfuel
  refine ⟨key.1, fun hlt p hp => ?_⟩
  have htext : ∀ c ∈ text', 0 ≤ c := by
    rw [w1.text]
    intro c hc
    rcases List.mem_append.1 hc with hc | hc
    · exact hdec ctx c hc
    · obtain ⟨sym, _, hc⟩ := List.mem_flatMap.1 hc
      exact hdec sym c hc
  obtain ⟨ps', g1', _, _, g4'⟩ := hrep text' t w2 htext (by omega)
  exact key.2 hlt _ p g4' (.inl (share_listed ht g1' (e := (0, [])) (by simp) hp))

/-- **C101** The `k` most likely continuations of `ctx` that the client prints are the symbols with the largest shares at
the state of `ctx` (the end of the text, written as nothing, among them). -/
theorem C101_kbest {m : NGram.Model XR} {ms : List (Component Arith.xr)} (hs : ∀ x ∈ (.char m : Component Arith.xr) :: ms, Served encode x)
    (hfix : ∀ x ∈ ms, Fixed x) (hm : Telling m) (hdec : ∀ sym, ∀ c ∈ decode sym, 0 ≤ c) (hsort : SortsFalling sort) :
    ∃ bound, ∀ fuel, bound ≤ fuel → ∀ orderN orderV, (env Arith.xr encode fuel orderN orderV).Fair →
      ∀ (cfg : HubConfig XR) h0 reqs h, (cfg.mixture = .none ∨ cfg.weights.length < 2) →
        initializeModels (env Arith.xr encode fuel orderN orderV) ((.char m : Component Arith.xr) :: ms) cfg = .ok (some h0) →
        serveAll (env Arith.xr encode fuel orderN orderV) h0 reqs = .ok h → Server.Typed reqs →
        ∀ (ctx : Str) (s : Nat), NGram.Moves encode m 0 (decode ctx) s →
        (directory reqs).length + (decode ctx).length ≤ cfgMax (A := Arith.xr) cfg → ∀ (random : Nat → XR) (sent : List (Client.Rpc XR)) (k : Int),
        (k ≤ m.symbols.length → ∃ (l : List (ℝ × Str)) (w : Client.World XR (Hub Arith.xr (Component Arith.xr) × (Nat → XR))),
          Client.oneKbestSample (A := Arith.xr) (Client.Env.xr sort decode) (service (env Arith.xr encode fuel orderN orderV) decode)
            ⟨(h, random), sent⟩ k ctx = .ok (some (l.map fun x => (.fin x.1, x.2)), w) ∧
          l.length = k.toNat ∧ (l.Pairwise fun a b => b.1 ≤ a.1) ∧ (l.map Prod.snd).Nodup ∧
          (∀ x ∈ l, ∃ e ∈ (0, []) :: m.symbols.tail, e.2 = x.2 ∧ NGram.Share m s e.1 x.1) ∧
          ∀ e ∈ (0, []) :: m.symbols.tail, ∀ p, NGram.Share m s e.1 p → e.2 ∉ l.map Prod.snd → ∀ x ∈ l, p ≤ x.1) ∧
        ((m.symbols.length : Int) < k →
          Client.oneKbestSample (A := Arith.xr) (Client.Env.xr sort decode) (service (env Arith.xr encode fuel orderN orderV) decode)
            ⟨(h, random), sent⟩ k ctx = .error .ub) := by
  obtain ⟨eps, rest, ht⟩ := hm.epsilon
  obtain ⟨b1, h1⟩ := char_replies hs hm ht
  have hfix' : ∀ x ∈ (.char m : Component Arith.xr) :: ms, Fixed x := by
    intro x hx
    rcases List.mem_cons.1 hx with rfl | hx
    · trivial
    · exact hfix x hx
  obtain ⟨b2, h2⟩ := C100_kbest hs hfix' hdec hsort
  refine ⟨max b1 b2, fun fuel hf orderN orderV hfair cfg h0 reqs h hcfg i0 i1 hty ctx s hmv hroom random sent k => ?_⟩
  have hd : 1 ≤ (directory reqs).length := directory_pos reqs
  obtain ⟨ps, g1, g2, g3, g4⟩ := h1 fuel (by omega) orderN orderV hfair cfg h0 hcfg i0 (decode ctx) s (hdec ctx) hmv (by omega)
  have hnorm : ¬ XR.le (shares rest ps).norm (.fin 0) := by simp [shares, XR.le]
  obtain ⟨a1, a2⟩ := h2 fuel (by omega) orderN orderV hfair cfg h0 reqs h i0 i1 hty ctx _ g4 hnorm (hm.proper ht g1 g2 g3) hroom random sent k
  have hlen : (shares rest ps).symbols.length = m.symbols.length := by rw [ht]; simp [shares]
  have htail : m.symbols.tail = rest := by rw [ht]; rfl
  rw [hlen] at a1 a2
  refine ⟨fun hk => ?_, a2⟩
  obtain ⟨l, w, hb, e⟩ := a1 hk
  refine ⟨l, w, e, hb.length, hb.order, hb.distinct, fun x hx => ?_, fun e he p hp hn x hx => ?_⟩
  · rw [htail]; exact listed_share ht g1 (hb.listed x hx)
  · rw [htail] at he; exact hb.best e.2 p (share_listed ht g1 he hp) hn x hx

end Mozolm.System
