import Verif.Props.RelabelServer
import Verif.XR

/-! # Cases that meet the hypotheses of C107 -/

namespace Mozolm.Relabel.Demo
open Mozolm.Relabel

/-- `<epsilon>`, `a`, `b`, and `<unk>`, which has the label that is the code point of `b`. -/
def table : Table := [(0, [60, 101, 62]), (1, [97]), (2, [98]), (98, NGram.unknownSymbol)]

noncomputable def fst : Fst XR :=
  { table := some table, start := 1
    states := [ { final := XR.fin 1, arcs := [⟨1, 1, XR.fin 2, 1⟩, ⟨2, 2, XR.fin 3, 0⟩, ⟨98, 98, XR.fin 4, 0⟩] },
                { final := XR.pinf, arcs := [⟨0, 0, XR.fin 3, 0⟩, ⟨1, 1, XR.fin 1, 1⟩] } ] }

theorem ascii_injective : Injective ascii := by
  intro a b c ha hb
  have key : ∀ x : Str, ascii x = some c → x = [c.toNat] := by
    intro x hx
    match x, hx with
    | [y], hx =>
      simp only [ascii] at hx
      split at hx
      · cases hx; simp
      · cases hx
  rw [key a ha, key b hb]

theorem clean : Clean ascii [NGram.unknownSymbol] table where
  formed := ⟨by decide, by decide⟩
  code := ascii_injective
  nonneg := by
    intro l s h
    simp only [table, List.mem_cons, Prod.mk.injEq, List.not_mem_nil, or_false] at h
    omega
  chars := by
    intro l s c h hl hk hd
    simp only [table, List.mem_cons, Prod.mk.injEq, List.not_mem_nil, or_false] at h
    rcases h with ⟨rfl, rfl⟩ | ⟨rfl, rfl⟩ | ⟨rfl, rfl⟩ | ⟨rfl, rfl⟩
    · exact absurd rfl hl
    · cases hd; decide
    · cases hd; decide
    · simp at hk
  kept := by
    intro l s h hk
    simp only [table, List.mem_cons, Prod.mk.injEq, List.not_mem_nil, or_false] at h
    rcases h with ⟨rfl, rfl⟩ | ⟨rfl, rfl⟩ | ⟨rfl, rfl⟩ | ⟨rfl, rfl⟩
    · revert hk; decide
    · revert hk; decide
    · revert hk; decide
    · decide

theorem known : ∀ st ∈ fst.states, ∀ a ∈ st.arcs, Known table a.ilabel := by
  intro st hst a ha
  simp only [fst, List.mem_cons, List.not_mem_nil, or_false] at hst
  rcases hst with rfl | rfl <;> simp only [List.mem_cons, List.not_mem_nil, or_false] at ha
  · rcases ha with rfl | rfl | rfl
    · exact .inr ⟨[97], by simp [table]⟩
    · exact .inr ⟨[98], by simp [table]⟩
    · exact .inr ⟨NGram.unknownSymbol, by simp [table]⟩
  · rcases ha with rfl | rfl
    · exact .inl rfl
    · exact .inr ⟨[97], by simp [table]⟩

def insert (a : Arc XR) : List (Arc XR) → List (Arc XR)
  | [] => [a]
  | b :: l => if a.ilabel ≤ b.ilabel then a :: b :: l else b :: insert a l

/-- `ArcSort` -/
def sort : List (Arc XR) → List (Arc XR)
  | [] => []
  | a :: l => insert a (sort l)

theorem insert_perm (a : Arc XR) (l : List (Arc XR)) : (insert a l).Perm (a :: l) := by
  induction l with
  | nil => exact .refl _
  | cons b l ih =>
    simp only [insert]
    split
    · exact .refl _
    · exact (ih.cons b).trans (.swap _ _ _)

theorem sort_perm (l : List (Arc XR)) : (sort l).Perm l := by
  induction l with
  | nil => exact .refl _
  | cons a l ih => exact (insert_perm a _).trans (ih.cons a)

theorem relabelled (ku : Bool) : ∃ g, relabel ascii ku sort [NGram.unknownSymbol] fst = some g := by
  rw [C46_accepts]
  refine ⟨?_, table, [(1, 97), (2, 98), (98, 1)], rfl, by decide⟩
  rw [← checked_iff]
  rfl

theorem reads : ∃ mo, NGram.read Arith.xr (source fst (true, true) 2) = .ok (some mo) := by
  rw [read_source (A := Arith.xr) fst (true, true) 2 rfl]
  exact ⟨_, rfl⟩

/-- Relabelled (the unmapped symbols kept), the model says the same, alone or in a server. -/
example (encode : Int → Str) : ∃ g mo mo', relabel ascii true sort [NGram.unknownSymbol] fst = some g ∧
    NGram.read Arith.xr (source fst (true, true) 2) = .ok (some mo) ∧ NGram.read Arith.xr (source g (true, true) 2) = .ok (some mo') ∧
    SameModel Arith.xr encode mo mo' := by
  obtain ⟨g, hg⟩ := relabelled true
  obtain ⟨mo, hmo⟩ := reads
  obtain ⟨mo', h1, h2⟩ := (C107_same (A := Arith.xr) sort_perm rfl clean known hg encode (true, true) 2).1 mo hmo
  exact ⟨g, mo, mo', hg, hmo, h1, h2⟩

/-- C108 and C107 in a server that mixes it with another model: the hypotheses are met by components that are not the same. -/
example (encode : Int → Str) (other : System.Component Arith.xr) : ∃ mo mo' : NGram.Model XR, mo.symbols ≠ mo'.symbols ∧
    (System.ops Arith.xr encode 9).Mimics (System.ops Arith.xr encode 9) (Standin encode) ∧
    Pointwise (Standin (A := Arith.xr) encode) [other, .char mo] [other, .char mo'] := by
  obtain ⟨g, hg⟩ := relabelled true
  obtain ⟨mo, hmo⟩ := reads
  obtain ⟨mo', h1, h2⟩ := (C107_same (A := Arith.xr) sort_perm rfl clean known hg encode (true, true) 2).1 mo hmo
  refine ⟨mo, mo', ?_, standin_mimics encode 9, .cons (.same _) (.cons (.char h2) .nil)⟩
  rw [read_source (A := Arith.xr) fst (true, true) 2 rfl] at hmo
  have hg' : relabel ascii true sort [NGram.unknownSymbol] fst = some _ := rfl
  rw [hg'] at hg
  cases hg
  rw [read_source (A := Arith.xr) _ (true, true) 2 rfl] at h1
  cases hmo
  cases h1
  intro e
  revert e
  decide

noncomputable def lossy : Fst XR :=
  { table := some [(97, [97]), (98, [98]), (1, NGram.unknownSymbol)], start := 1
    states := [ { final := XR.fin 1, arcs := [⟨1, 1, XR.fin 4, 0⟩, ⟨97, 97, XR.fin 2, 1⟩, ⟨98, 98, XR.fin 3, 0⟩] },
                { final := XR.pinf, arcs := [⟨0, 0, XR.fin 3, 0⟩, ⟨97, 97, XR.fin 1, 1⟩] } ] }

/-- With a table of the pairs only, `a` is not in the replies, and replies there are. -/
example : ∃ g mo', relabel ascii false sort [NGram.unknownSymbol] fst = some g ∧
    NGram.read Arith.xr (source g (true, true) 2) = .ok (some mo') ∧ mo'.symbols = [(97, [97]), (98, [98]), (1, NGram.unknownSymbol)] ∧
    ∃ r, NGram.extractLMScores (A := Arith.xr) 5 mo' 1 = .ok r ∧ [97] ∉ r.symbols := by
  obtain ⟨g, hg⟩ := relabelled false
  obtain ⟨mo, hmo⟩ := reads
  have hg' : g = lossy := by
    have : relabel ascii false sort [NGram.unknownSymbol] fst = some lossy := rfl
    rw [this] at hg
    cases hg
    rfl
  subst hg'
  have hr : NGram.read Arith.xr (source lossy (true, true) 2) = .ok (some { fst := lossy.plain, symbols := [(97, [97]), (98, [98]), (1, NGram.unknownSymbol)], oov := 1, unigram := 0, hiOrder := 2 }) := by
    rw [read_source (A := Arith.xr) _ (true, true) 2 rfl]
    rfl
  have hf : NGram.labelCostInState Arith.xr lossy.plain 5 1 0 = .ok (Arith.xr.times (XR.fin 1) (Arith.xr.times Arith.xr.one (XR.fin 3))) := by
    simp [NGram.labelCostInState, NGram.finalCostInState, NGram.finalLoop, NGram.getBackoff, lossy, Fst.plain, Mozolm.Fst.state?, Arith.xr]
  have hx : ∃ costs, NGram.costsOf Arith.xr lossy.plain 5 1 [0, 98, 1] = .ok costs := ⟨_, bind_ok.2 ⟨_, hf, rfl⟩⟩
  obtain ⟨costs, hx⟩ := hx
  have he : ∃ r, NGram.extractLMScores (A := Arith.xr) 5 { fst := lossy.plain, symbols := [(97, [97]), (98, [98]), (1, NGram.unknownSymbol)], oov := 1, unigram := 0, hiOrder := 2 } 1 = .ok r := by
    cases costs with
    | nil =>
      simp only [NGram.costsOf] at hx
      obtain ⟨_, _, hx⟩ := bind_ok.1 hx
      obtain ⟨_, _, hx⟩ := bind_ok.1 hx
      cases hx
    | cons c cs => exact ⟨_, bind_ok.2 ⟨_, hx, rfl⟩⟩
  obtain ⟨r, he⟩ := he
  exact ⟨lossy, _, hg, hr, rfl, r, he, (C107_lost (A := Arith.xr) (pre := [(0, [60, 101, 62])]) (rest := [(2, [98]), (98, NGram.unknownSymbol)]) rfl clean
    (by decide) (by decide) (by decide) (by decide) (by decide) hg (true, true) 2 hmo hr 5 1 r).2 he⟩

/-- The program on this automaton: files `i` and `o`. -/
example : relabelMain ascii false sort (fun _ => some fst) (fun _ _ => true) { input := [105], output := [111], keep := [NGram.unknownSymbol] } =
    (0, some ([111], lossy)) := rfl

end Mozolm.Relabel.Demo
