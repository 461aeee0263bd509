import Verif.Relabel.Model
import Verif.Basic

/-!
# C46: relabelling with code points

Quantified over every symbol table, keep list, decoder and automaton.
-/

namespace Mozolm.Relabel

variable {decode : Str → Option Int} {keep : List Str}

/-- A usable symbol table: no two entries share a label, no two share a symbol. -/
structure WellFormed (t : Table) : Prop where
  labels : (t.map Prod.fst).Nodup
  symbols : (t.map Prod.snd).Nodup

/-- Decoding is a code: distinct single-character strings are distinct characters. -/
def Injective (decode : Str → Option Int) : Prop :=
  ∀ a b c, decode a = some c → decode b = some c → a = b

theorem collect_spec {t : Table} {m : List (Int × Int)} {kept : List Int}
    (h : collect decode keep t = some (m, kept)) :
    (∀ l c, (l, c) ∈ m ↔ ∃ s, (l, s) ∈ t ∧ l ≠ 0 ∧ s ∉ keep ∧ decode s = some c) ∧
    (∀ l, l ∈ kept ↔ ∃ s, (l, s) ∈ t ∧ l ≠ 0 ∧ s ∈ keep) ∧
    (m.map Prod.fst).Sublist (t.map Prod.fst) ∧ kept.Sublist (t.map Prod.fst) := by
  induction t generalizing m kept with
  | nil => cases h; simp
  | cons e rest ih =>
    obtain ⟨label, sym⟩ := e
    simp only [collect] at h
    by_cases h0 : label = 0
    · rw [if_pos h0] at h
      obtain ⟨i1, i2, i3, i4⟩ := ih h
      refine ⟨fun l c => ?_, fun l => ?_, ?_, ?_⟩
      · rw [i1]
        constructor
        · rintro ⟨s, a, b⟩; exact ⟨s, by simp [a], b⟩
        · rintro ⟨s, a, b, d⟩
          rcases List.mem_cons.1 a with a | a
          · cases a; exact absurd h0 b
          · exact ⟨s, a, b, d⟩
      · rw [i2]
        constructor
        · rintro ⟨s, a, b⟩; exact ⟨s, by simp [a], b⟩
        · rintro ⟨s, a, b, d⟩
          rcases List.mem_cons.1 a with a | a
          · cases a; exact absurd h0 b
          · exact ⟨s, a, b, d⟩
      · simpa using i3.cons _
      · simpa using i4.cons _
    · rw [if_neg h0] at h
      by_cases hk : sym ∈ keep
      · rw [if_pos hk] at h
        split at h
        · cases h
        · next m' k' hc =>
          cases h
          obtain ⟨i1, i2, i3, i4⟩ := ih hc
          refine ⟨fun l c => ?_, fun l => ?_, ?_, ?_⟩
          · rw [i1]
            constructor
            · rintro ⟨s, a, b⟩; exact ⟨s, by simp [a], b⟩
            · rintro ⟨s, a, b, d, g⟩
              rcases List.mem_cons.1 a with a | a
              · cases a; exact absurd hk d
              · exact ⟨s, a, b, d, g⟩
          · rw [List.mem_cons, i2]
            constructor
            · rintro (rfl | ⟨s, a, b⟩)
              · exact ⟨sym, by simp, h0, hk⟩
              · exact ⟨s, by simp [a], b⟩
            · rintro ⟨s, a, b⟩
              rcases List.mem_cons.1 a with a | a
              · cases a; exact .inl rfl
              · exact .inr ⟨s, a, b⟩
          · simpa using i3.cons _
          · simpa using i4
      · rw [if_neg hk] at h
        split at h
        · cases h
        · next cp hcp =>
          split at h
          · cases h
          · next m' k' hc =>
            cases h
            obtain ⟨i1, i2, i3, i4⟩ := ih hc
            refine ⟨fun l c => ?_, fun l => ?_, ?_, ?_⟩
            · rw [List.mem_cons, i1]
              constructor
              · rintro (a | ⟨s, a, b⟩)
                · cases a; exact ⟨sym, by simp, h0, hk, hcp⟩
                · exact ⟨s, by simp [a], b⟩
              · rintro ⟨s, a, b, d, g⟩
                rcases List.mem_cons.1 a with a | a
                · cases a
                  rw [hcp] at g; cases g
                  exact .inl rfl
                · exact .inr ⟨s, a, b, d, g⟩
            · rw [i2]
              constructor
              · rintro ⟨s, a, b⟩; exact ⟨s, by simp [a], b⟩
              · rintro ⟨s, a, b, d⟩
                rcases List.mem_cons.1 a with a | a
                · cases a; exact absurd d hk
                · exact ⟨s, a, b, d⟩
            · simpa using i3
            · simpa using i4.cons _

theorem collect_none {t : Table} :
    collect decode keep t = none ↔
      ∃ l s, (l, s) ∈ t ∧ l ≠ 0 ∧ s ∉ keep ∧ decode s = none := by
  induction t with
  | nil => simp [collect]
  | cons e rest ih =>
    obtain ⟨label, sym⟩ := e
    have tail : (∃ l s, (l, s) ∈ rest ∧ l ≠ 0 ∧ s ∉ keep ∧ decode s = none) →
        ∃ l s, (l, s) ∈ (label, sym) :: rest ∧ l ≠ 0 ∧ s ∉ keep ∧ decode s = none := by
      rintro ⟨l, s, a, b⟩; exact ⟨l, s, by simp [a], b⟩
    simp only [collect]
    by_cases h0 : label = 0
    · rw [if_pos h0, ih]
      constructor
      · exact tail
      · rintro ⟨l, s, a, b, c⟩
        rcases List.mem_cons.1 a with a | a
        · cases a; exact absurd h0 b
        · exact ⟨l, s, a, b, c⟩
    · rw [if_neg h0]
      by_cases hk : sym ∈ keep
      · rw [if_pos hk]
        cases hc : collect decode keep rest with
        | none => simp only [true_iff]; exact tail (ih.1 hc)
        | some p =>
          simp only [reduceCtorEq, false_iff]
          rintro ⟨l, s, a, b, c, d⟩
          rcases List.mem_cons.1 a with a | a
          · cases a; exact c hk
          · have := ih.2 ⟨l, s, a, b, c, d⟩; rw [hc] at this; cases this
      · rw [if_neg hk]
        cases hd : decode sym with
        | none => simp only [true_iff]; exact ⟨label, sym, by simp, h0, hk, hd⟩
        | some cp =>
          cases hc : collect decode keep rest with
          | none => simp only [true_iff]; exact tail (ih.1 hc)
          | some p =>
            simp only [reduceCtorEq, false_iff]
            rintro ⟨l, s, a, b, c, d⟩
            rcases List.mem_cons.1 a with a | a
            · cases a; rw [hd] at d; cases d
            · have := ih.2 ⟨l, s, a, b, c, d⟩; rw [hc] at this; cases this

theorem moveKept_spec {new : List Int} {n : Nat} {ks : List Int} {m : List (Int × Int)}
    (h : moveKept new n ks = some m) :
    m.map Prod.fst = ks.filter (· ∈ new) ∧ m.map Prod.snd = (allowed.drop n).take m.length ∧
      m.length ≤ allowed.length - n := by
  induction ks generalizing n m with
  | nil => cases h; simp
  | cons k ks ih =>
    simp only [moveKept] at h
    by_cases hk : k ∈ new
    · rw [if_pos hk] at h
      split at h
      · cases h
      · next a ha =>
        split at h
        · cases h
        · next m' hm =>
          cases h
          obtain ⟨i1, i2, i3⟩ := ih hm
          have hn : n < allowed.length := lt_of_getElem?_eq_some ha
          have hd : allowed.drop n = a :: allowed.drop (n + 1) := by
            rw [List.getElem?_eq_getElem hn, Option.some.injEq] at ha
            rw [← ha]; exact List.drop_eq_getElem_cons hn
          refine ⟨by simp [hk, i1], ?_, ?_⟩
          · rw [hd]; simp [i2]
          · simp only [List.length_cons]; omega
    · rw [if_neg hk] at h
      obtain ⟨i1, i2, i3⟩ := ih h
      exact ⟨by simp [hk, i1], i2, i3⟩

theorem allowed_nodup : allowed.Nodup := by decide

theorem newLabel_of_mem {m : List (Int × Int)} (hn : (m.map Prod.fst).Nodup) {l c : Int}
    (h : (l, c) ∈ m) : newLabel m l = c := by
  induction m with
  | nil => cases h
  | cons p m ih =>
    simp only [List.map_cons, List.nodup_cons] at hn
    simp only [newLabel, List.find?_cons]
    rcases List.mem_cons.1 h with h | h
    · subst h; simp
    · have hne : (p.1 == l) = false := by
        simp only [beq_eq_false_iff_ne, ne_eq]
        intro e
        exact hn.1 (by rw [e]; exact List.mem_map.2 ⟨_, h, rfl⟩)
      simp only [hne]
      exact ih hn.2 h

theorem newLabel_of_not_mem {m : List (Int × Int)} {l : Int} (h : l ∉ m.map Prod.fst) :
    newLabel m l = l := by
  have : m.find? (fun p => p.1 == l) = none := by
    rw [List.find?_eq_none]
    intro p hp
    simp only [beq_iff_eq]
    intro e
    exact h (List.mem_map.2 ⟨p, hp, e⟩)
  simp only [newLabel, this]

/-- The pieces of a successful mapping. -/
theorem mapping_parts {t : Table} (hw : WellFormed t) {m : List (Int × Int)}
    (h : codepointMapping decode keep t = some m) :
    ∃ m1 m2 kept, m = m1 ++ m2 ∧ collect decode keep t = some (m1, kept) ∧
      m2.map Prod.fst = kept.filter (· ∈ m1.map Prod.snd) ∧
      m2.map Prod.snd = allowed.take m2.length ∧ (m.map Prod.fst).Nodup := by
  simp only [codepointMapping] at h
  split at h
  · cases h
  · next m1 kept hc =>
    split at h
    · cases h
    · next m2 hm =>
      cases h
      obtain ⟨c1, c2, c3, c4⟩ := collect_spec hc
      obtain ⟨k1, k2, k3⟩ := moveKept_spec hm
      refine ⟨m1, m2, kept, rfl, hc, k1, by simpa using k2, ?_⟩
      rw [List.map_append, List.nodup_append]
      refine ⟨c3.nodup hw.labels, ?_, ?_⟩
      · rw [k1]; exact (c4.nodup hw.labels).sublist List.filter_sublist
      · intro a ha b hb e
        subst e
        obtain ⟨⟨l, c⟩, hp, rfl⟩ := List.mem_map.1 ha
        obtain ⟨s, hs, _, hnk, _⟩ := (c1 l c).1 hp
        rw [k1] at hb
        obtain ⟨s', hs', _, hk⟩ := (c2 l).1 (List.mem_filter.1 hb).1
        have : s = s' := by
          have hl := hw.labels
          rw [List.nodup_iff_pairwise_ne, List.pairwise_map] at hl
          by_cases e : s = s'
          · exact e
          · exfalso
            have key : ∀ {t : Table}, List.Pairwise (fun a b : Int × Str => a.1 ≠ b.1) t →
                (l, s) ∈ t → (l, s') ∈ t → s = s' := by
              intro t hp h1 h2
              induction t with
              | nil => cases h1
              | cons x t ih =>
                rw [List.pairwise_cons] at hp
                rcases List.mem_cons.1 h1 with h1 | h1 <;> rcases List.mem_cons.1 h2 with h2 | h2
                · rw [← h1] at h2; cases h2; rfl
                · exact absurd (by rw [← h1]) (hp.1 _ h2)
                · exact absurd (by rw [← h2]) (hp.1 _ h1)
                · exact ih hp.2 h1 h2
            exact e (key hl hs hs')
        subst this
        exact hnk hk

/-- **C46** every symbol that is not kept (and is not epsilon) gets its code point as label. -/
theorem C46_codepoints {t : Table} (hw : WellFormed t) {m : List (Int × Int)}
    (h : codepointMapping decode keep t = some m) {l : Int} {s : Str} (hs : (l, s) ∈ t) (hl : l ≠ 0)
    (hk : s ∉ keep) : decode s = some (newLabel m l) := by
  obtain ⟨m1, m2, kept, hm, hc, _, _, hn⟩ := mapping_parts hw h
  obtain ⟨c1, c2, _, _⟩ := collect_spec hc
  cases hd : decode s with
  | none =>
    have := collect_none.2 ⟨l, s, hs, hl, hk, hd⟩
    rw [hc] at this; cases this
  | some c =>
    have : (l, c) ∈ m := by rw [hm]; exact List.mem_append_left _ ((c1 l c).2 ⟨s, hs, hl, hk, hd⟩)
    rw [newLabel_of_mem hn this]

/-- The symbol of a label is unique in a well-formed table. -/
theorem symbol_unique {t : Table} (hw : WellFormed t) {l : Int} {s s' : Str} (h1 : (l, s) ∈ t)
    (h2 : (l, s') ∈ t) : s = s' := by
  have hp := hw.labels
  rw [List.nodup_iff_pairwise_ne, List.pairwise_map] at hp
  clear hw
  induction t with
  | nil => cases h1
  | cons x t ih =>
    rw [List.pairwise_cons] at hp
    rcases List.mem_cons.1 h1 with h1 | h1 <;> rcases List.mem_cons.1 h2 with h2 | h2
    · rw [← h1] at h2; cases h2; rfl
    · exact absurd (by rw [← h1]) (hp.1 _ h2)
    · exact absurd (by rw [← h2]) (hp.1 _ h1)
    · exact ih h1 h2 hp.2

/-- A kept symbol keeps its label unless that is the code point of a symbol that is not kept; then it
gets one of the reserved control-character labels. -/
theorem C46_kept {t : Table} (hw : WellFormed t) {m : List (Int × Int)}
    (h : codepointMapping decode keep t = some m) {l : Int} {s : Str} (hs : (l, s) ∈ t) (hl : l ≠ 0)
    (hk : s ∈ keep) :
    ((∃ l' s', (l', s') ∈ t ∧ l' ≠ 0 ∧ s' ∉ keep ∧ decode s' = some l) ∧ newLabel m l ∈ allowed) ∨
    ((¬ ∃ l' s', (l', s') ∈ t ∧ l' ≠ 0 ∧ s' ∉ keep ∧ decode s' = some l) ∧ newLabel m l = l) := by
  obtain ⟨m1, m2, kept, hm, hc, hk1, hk2, hn⟩ := mapping_parts hw h
  obtain ⟨c1, c2, _, _⟩ := collect_spec hc
  have hin : l ∈ m1.map Prod.snd ↔ ∃ l' s', (l', s') ∈ t ∧ l' ≠ 0 ∧ s' ∉ keep ∧ decode s' = some l := by
    rw [List.mem_map]
    constructor
    · rintro ⟨⟨l', c⟩, hp, e⟩
      obtain ⟨s', a⟩ := (c1 l' c).1 hp
      cases e
      exact ⟨l', s', a⟩
    · rintro ⟨l', s', a⟩
      exact ⟨(l', l), (c1 l' l).2 ⟨s', a⟩, rfl⟩
  have hkept : l ∈ kept := (c2 l).2 ⟨s, hs, hl, hk⟩
  by_cases hcol : l ∈ m1.map Prod.snd
  · left
    refine ⟨hin.1 hcol, ?_⟩
    have : l ∈ m2.map Prod.fst := by
      rw [hk1, List.mem_filter]; exact ⟨hkept, by simpa using hcol⟩
    obtain ⟨⟨l', a⟩, hp, e⟩ := List.mem_map.1 this
    simp only at e
    rw [e] at hp
    rw [newLabel_of_mem hn (by rw [hm]; exact List.mem_append_right _ hp)]
    have : a ∈ m2.map Prod.snd := List.mem_map.2 ⟨_, hp, rfl⟩
    rw [hk2] at this
    exact List.mem_of_mem_take this
  · right
    refine ⟨fun x => hcol (hin.2 x), newLabel_of_not_mem ?_⟩
    rw [hm, List.map_append, List.mem_append]
    rintro (h1 | h1)
    · obtain ⟨⟨l', c⟩, hp, e⟩ := List.mem_map.1 h1
      simp only at e
      rw [e] at hp
      obtain ⟨s', a, _, b, _⟩ := (c1 l c).1 hp
      rw [symbol_unique hw hs a] at hk
      exact b hk
    · rw [hk1, List.mem_filter] at h1
      exact hcol (by simpa using h1.2)

/-- Two kept symbols that are both moved get different labels. -/
theorem moved_distinct {t : Table} (hw : WellFormed t) {m : List (Int × Int)}
    (h : codepointMapping decode keep t = some m) {l l' : Int} {s s' : Str} (hs : (l, s) ∈ t)
    (hs' : (l', s') ∈ t) (hl : l ≠ 0) (hl' : l' ≠ 0) (hk : s ∈ keep) (hk' : s' ∈ keep)
    (hc1 : ∃ l₀ s₀, (l₀, s₀) ∈ t ∧ l₀ ≠ 0 ∧ s₀ ∉ keep ∧ decode s₀ = some l)
    (hc2 : ∃ l₀ s₀, (l₀, s₀) ∈ t ∧ l₀ ≠ 0 ∧ s₀ ∉ keep ∧ decode s₀ = some l')
    (he : newLabel m l = newLabel m l') : l = l' := by
  obtain ⟨m1, m2, kept, hm, hc, hk1, hk2, hn⟩ := mapping_parts hw h
  obtain ⟨c1, c2, _, _⟩ := collect_spec hc
  have pair : ∀ {l : Int} {s : Str}, (l, s) ∈ t → l ≠ 0 → s ∈ keep →
      (∃ l₀ s₀, (l₀, s₀) ∈ t ∧ l₀ ≠ 0 ∧ s₀ ∉ keep ∧ decode s₀ = some l) → (l, newLabel m l) ∈ m2 := by
    intro l s a b c ⟨l₀, s₀, d⟩
    have : l ∈ m2.map Prod.fst := by
      rw [hk1, List.mem_filter]
      refine ⟨(c2 l).2 ⟨s, a, b, c⟩, ?_⟩
      simp only [decide_eq_true_eq]
      exact List.mem_map.2 ⟨(l₀, l), (c1 l₀ l).2 ⟨s₀, d⟩, rfl⟩
    obtain ⟨⟨x, y⟩, hp, e⟩ := List.mem_map.1 this
    cases e
    rwa [newLabel_of_mem hn (by rw [hm]; exact List.mem_append_right _ hp)]
  have p1 := pair hs hl hk hc1
  have p2 := pair hs' hl' hk' hc2
  have hnd : (m2.map Prod.snd).Nodup := by
    rw [hk2]; exact allowed_nodup.sublist (List.take_sublist _ _)
  rw [← he] at p2
  generalize newLabel m l = v at p1 p2
  clear hk2 hk1 hn hm pair
  induction m2 with
  | nil => cases p1
  | cons x m2 ih =>
    simp only [List.map_cons, List.nodup_cons] at hnd
    rcases List.mem_cons.1 p1 with p1 | p1 <;> rcases List.mem_cons.1 p2 with p2 | p2
    · rw [← p1] at p2; cases p2; rfl
    · exact absurd (List.mem_map.2 ⟨_, p2, by rw [← p1]⟩) hnd.1
    · exact absurd (List.mem_map.2 ⟨_, p1, by rw [← p2]⟩) hnd.1
    · exact ih hnd.2 p1 p2

/-- **C46** if no code point of a symbol that is not kept, and no label of a kept
symbol, is a reserved control-character label, then after a successful relabelling distinct symbols
(other than epsilon) have distinct labels.  Without the proviso
the claim is false (`C46_false`). -/
theorem C46_distinct {t : Table} (hw : WellFormed t) (hi : Injective decode)
    {m : List (Int × Int)} (h : codepointMapping decode keep t = some m)
    (hfree1 : ∀ l s c, (l, s) ∈ t → l ≠ 0 → s ∉ keep → decode s = some c → c ∉ allowed)
    (hfree2 : ∀ l s, (l, s) ∈ t → s ∈ keep → l ∉ allowed)
    {l l' : Int} {s s' : Str} (hs : (l, s) ∈ t) (hs' : (l', s') ∈ t) (hl : l ≠ 0) (hl' : l' ≠ 0)
    (he : newLabel m l = newLabel m l') : s = s' := by
  have mixed : ∀ {l l' : Int} {s s' : Str}, (l, s) ∈ t → (l', s') ∈ t → l ≠ 0 → l' ≠ 0 →
      s ∈ keep → s' ∉ keep → newLabel m l ≠ newLabel m l' := by
    intro l l' s s' hs hs' hl hl' hk hk' he
    have hd := C46_codepoints hw h hs' hl' hk'
    rcases C46_kept hw h hs hl hk with ⟨_, hmem⟩ | ⟨hno, heq⟩
    · exact hfree1 _ _ _ hs' hl' hk' hd (he ▸ hmem)
    · exact hno ⟨l', s', hs', hl', hk', by rw [hd, ← he, heq]⟩
  by_cases hk : s ∈ keep <;> by_cases hk' : s' ∈ keep
  · rcases C46_kept hw h hs hl hk with ⟨hc1, hm1⟩ | ⟨_, he1⟩ <;>
      rcases C46_kept hw h hs' hl' hk' with ⟨hc2, hm2⟩ | ⟨_, he2⟩
    · have := moved_distinct hw h hs hs' hl hl' hk hk' hc1 hc2 he
      subst this
      exact symbol_unique hw hs hs'
    · rw [he, he2] at hm1
      exact absurd hm1 (hfree2 _ _ hs' hk')
    · rw [← he, he1] at hm2
      exact absurd hm2 (hfree2 _ _ hs hk)
    · rw [he1, he2] at he
      subst he
      exact symbol_unique hw hs hs'
  · exact absurd he (mixed hs hs' hl hl' hk hk')
  · exact absurd he.symm (mixed hs' hs hl' hl hk' hk)
  · have h1 := C46_codepoints hw h hs hl hk
    have h2 := C46_codepoints hw h hs' hl' hk'
    rw [he] at h1
    exact hi _ _ _ h1 h2

/-- ASCII decoding, for the concrete cases. -/
def ascii : Str → Option Int
  | [b] => if b < 128 then some b else none
  | _ => none

/-- "k1" and "k2" -/
def k1 : Str := [107, 49]
def k2 : Str := [107, 50]

/-- **C46** is false in general: with kept symbols `k1` (label 97, the code point of `a`) and `k2`
(label 1), `k1` is moved to label 1, which `k2` still has. -/
theorem C46_false : ∃ (t : Table) (m : List (Int × Int)), WellFormed t ∧ Injective ascii ∧
    codepointMapping ascii [k1, k2] t = some m ∧ (97, k1) ∈ t ∧ (1, k2) ∈ t ∧
    newLabel m 97 = newLabel m 1 := by
  refine ⟨[(0, [60]), (2, [97]), (97, k1), (1, k2)], _, ⟨by decide, by decide⟩, ?_, rfl, by simp,
    by simp, by decide⟩
  intro a b c ha hb
  have key : ∀ x : Str, ascii x = some c → x = [c.toNat] := by
    intro x hx
    match x, hx with
    | [y], hx =>
      simp only [ascii] at hx
      split at hx
      · cases hx; rfl
      · cases hx
  rw [key a ha, key b hb]

/-- After a successful relabelling no symbol but epsilon has the epsilon label, unless it is the NUL
character itself. -/
theorem C46_not_epsilon {t : Table} (hw : WellFormed t) {m : List (Int × Int)}
    (h : codepointMapping decode keep t = some m) {l : Int} {s : Str} (hs : (l, s) ∈ t) (hl : l ≠ 0)
    (hz : decode s ≠ some 0) : newLabel m l ≠ 0 := by
  by_cases hk : s ∈ keep
  · rcases C46_kept hw h hs hl hk with ⟨_, hmem⟩ | ⟨_, heq⟩
    · intro e
      rw [e] at hmem
      revert hmem
      decide
    · rw [heq]; exact hl
  · have := C46_codepoints hw h hs hl hk
    intro e
    rw [e] at this
    exact hz this

/-- The mapping fails exactly when a symbol to be relabelled is not a single code point or more kept
symbols collide than there are reserved labels (27). -/
theorem C46_fails_iff {t : Table} :
    codepointMapping decode keep t = none ↔
      (∃ l s, (l, s) ∈ t ∧ l ≠ 0 ∧ s ∉ keep ∧ decode s = none) ∨
      (∃ m kept, collect decode keep t = some (m, kept) ∧
        27 < (kept.filter (· ∈ m.map Prod.snd)).length) := by
  have hmv : ∀ (new ks : List Int) (n : Nat), n ≤ allowed.length →
      (moveKept new n ks = none ↔ allowed.length < n + (ks.filter (· ∈ new)).length) := by
    intro new ks
    induction ks with
    | nil => intro n hn; simp [moveKept]; omega
    | cons k ks ih =>
      intro n hn
      simp only [moveKept]
      by_cases hk : k ∈ new
      · rw [if_pos hk, List.filter_cons_of_pos (by simpa using hk), List.length_cons]
        by_cases hlt : n < allowed.length
        · obtain ⟨a, ha⟩ := exists_getElem?_of_lt hlt
          rw [ha]
          have := ih (n + 1) (by omega)
          cases hm : moveKept new (n + 1) ks with
          | none => have h1 := this.1 hm; simp only [true_iff]; omega
          | some m =>
            simp only [reduceCtorEq, false_iff]
            intro hx
            rw [this.2 (by omega)] at hm; cases hm
        · rw [List.getElem?_eq_none (by omega)]
          simp only [true_iff]; omega
      · rw [if_neg hk, List.filter_cons_of_neg (by simpa using hk)]
        exact ih n hn
  have hal : allowed.length = 27 := by decide
  simp only [codepointMapping]
  cases hc : collect decode keep t with
  | none => simp only [true_iff]; exact .inl (collect_none.1 hc)
  | some p =>
    obtain ⟨m, kept⟩ := p
    have hno : ¬ ∃ l s, (l, s) ∈ t ∧ l ≠ 0 ∧ s ∉ keep ∧ decode s = none := by
      intro h; rw [collect_none.2 h] at hc; cases hc
    simp only [hno, false_or, Option.some.injEq, Prod.mk.injEq]
    have := hmv (m.map Prod.snd) kept 0 (Nat.zero_le _)
    rw [hal] at this
    constructor
    · intro h
      split at h
      · next hm => exact ⟨m, kept, ⟨rfl, rfl⟩, by have := this.1 hm; omega⟩
      · cases h
    · rintro ⟨m', kept', ⟨rfl, rfl⟩, hlen⟩
      rw [this.2 (by omega)]

theorem findSymbol_of_mem {t : Table} (hw : WellFormed t) {l : Int} {s : Str} (h : (l, s) ∈ t) : SymbolTable.findSymbol t l = s := by
  simp only [SymbolTable.findSymbol]
  cases hf : t.find? (fun e => e.1 == l) with
  | none => rw [List.find?_eq_none] at hf; exact absurd (by simp) (hf _ h)
  | some e =>
    have h1 := List.mem_of_find?_eq_some hf
    have h2 : e.1 = l := by simpa using List.find?_some hf
    obtain ⟨a, b⟩ := e
    simp only at h2
    subst h2
    exact symbol_unique hw h1 h

/-- Every label with a pair is one of the table. -/
theorem mapped_label {t : Table} {m : List (Int × Int)} (h : codepointMapping decode keep t = some m) {l : Int}
    (hl : l ∈ m.map Prod.fst) : ∃ s, (l, s) ∈ t ∧ l ≠ 0 := by
  simp only [codepointMapping] at h
  split at h
  · cases h
  · next m1 kept hc =>
    split at h
    · cases h
    · next m2 hm =>
      cases h
      obtain ⟨c1, c2, _, _⟩ := collect_spec hc
      obtain ⟨k1, _, _⟩ := moveKept_spec hm
      rw [List.map_append, List.mem_append] at hl
      rcases hl with hl | hl
      · obtain ⟨⟨x, y⟩, hp, rfl⟩ := List.mem_map.1 hl
        obtain ⟨s, a, b, _⟩ := (c1 x y).1 hp
        exact ⟨s, a, b⟩
      · rw [k1] at hl
        obtain ⟨s, a, b, _⟩ := (c2 l).1 (List.mem_filter.1 hl).1
        exact ⟨s, a, b⟩

variable {C : Type}

/-- The pieces of a successful relabelling. -/
theorem relabel_parts {sort : List (Arc C) → List (Arc C)} {ku : Bool} {f g : Fst C} (h : relabel decode ku sort keep f = some g) :
    checkProperties f = true ∧ ∃ t m, f.table = some t ∧ codepointMapping decode keep t = some m ∧
      g = { table := some (relabelTable ku m t), start := f.start
            states := f.states.map fun st => { st with
              arcs := sort (st.arcs.map fun a => { a with ilabel := newLabel m a.ilabel, olabel := newLabel m a.olabel }) } } := by
  simp only [relabel] at h
  split at h
  · next hp =>
    split at h
    · cases h
    · next t ht =>
      split at h
      · cases h
      · next m hm =>
        cases h
        exact ⟨hp, t, m, ht, hm, rfl⟩
  · cases h

/-- **C46** (whole automaton) a successful relabelling keeps every state and, up to order, every arc:
each arc of the result is an old arc of the same state with the same weight and target, its label mapped like the
labels of the symbol table; and every symbol mapped in the table is found under its new label. -/
theorem C46_automaton {sort : List (Arc C) → List (Arc C)} (hsort : ∀ l, (sort l).Perm l) {ku : Bool}
    {f g : Fst C} (hw : ∀ t, f.table = some t → WellFormed t) (h : relabel decode ku sort keep f = some g) :
    ∃ t m t', f.table = some t ∧ codepointMapping decode keep t = some m ∧ g.table = some t' ∧
      (∀ l s, (l, s) ∈ t → l ∈ m.map Prod.fst → (newLabel m l, s) ∈ t') ∧
      (∀ l' s, (l', s) ∈ t' → ∃ l, (l, s) ∈ t ∧ l' = newLabel m l) ∧
      g.start = f.start ∧ g.states.length = f.states.length ∧
      ∀ (i : Nat) (st : State C), f.states[i]? = some st → ∃ st' : State C, g.states[i]? = some st' ∧ st'.final = st.final ∧
        st'.arcs.Perm (st.arcs.map fun a => ⟨newLabel m a.ilabel, newLabel m a.ilabel, a.weight, a.next⟩) := by
  obtain ⟨hp, t, m, ht, hm, rfl⟩ := relabel_parts h
  have hwt := hw t ht
  obtain ⟨_, _, _, _, _, _, _, hn⟩ := mapping_parts hwt hm
  refine ⟨t, m, _, ht, hm, rfl, ?_, ?_, rfl, by simp, ?_⟩
  · intro l s hs hl
    cases ku with
    | true => simp only [relabelTable, if_true]; exact List.mem_map.2 ⟨(l, s), hs, rfl⟩
    | false =>
      simp only [relabelTable, Bool.false_eq_true, if_false]
      obtain ⟨⟨x, y⟩, hp, rfl⟩ := List.mem_map.1 hl
      refine List.mem_map.2 ⟨(x, y), hp, ?_⟩
      simp only [newLabel_of_mem hn hp, findSymbol_of_mem hwt hs]
  · intro l' s hs
    cases ku with
    | true =>
      simp only [relabelTable, if_true] at hs
      obtain ⟨⟨l, s'⟩, h1, e⟩ := List.mem_map.1 hs
      cases e
      exact ⟨l, h1, rfl⟩
    | false =>
      simp only [relabelTable, Bool.false_eq_true, if_false] at hs
      obtain ⟨⟨l, c⟩, h1, e⟩ := List.mem_map.1 hs
      obtain ⟨s', h2, _⟩ := mapped_label hm (List.mem_map.2 ⟨_, h1, rfl⟩)
      simp only [findSymbol_of_mem hwt h2] at e
      cases e
      exact ⟨l, h2, (newLabel_of_mem hn h1).symm⟩
  · intro i st hi
    have hmem : st ∈ f.states := List.mem_of_getElem? hi
    refine ⟨{ st with arcs := sort (st.arcs.map fun a => { a with ilabel := newLabel m a.ilabel, olabel := newLabel m a.olabel }) },
      by simp [hi], rfl, (hsort _).trans (List.Perm.of_eq ?_)⟩
    apply List.map_congr_left
    intro a ha
    simp only [checkProperties, acceptor, Bool.and_eq_true, List.all_eq_true, beq_iff_eq] at hp
    rw [← hp.1.1 st hmem a ha]

/-- The properties that are checked. -/
theorem checked_iff {f : Fst C} : checkProperties f = true ↔
    ∀ st ∈ f.states, (∀ a ∈ st.arcs, a.ilabel = a.olabel) ∧ st.arcs.Pairwise fun a b => a.ilabel < b.ilabel := by
  simp only [checkProperties, acceptor, deterministic, sorted, Bool.and_eq_true, List.all_eq_true, beq_iff_eq, decide_eq_true_eq,
    List.nodup_iff_pairwise_ne, List.pairwise_map]
  constructor
  · rintro ⟨⟨h1, h2⟩, h3⟩ arcs ha
    refine ⟨h1 arcs ha, ((h2 arcs ha).and (h3 arcs ha)).imp ?_⟩
    rintro a b ⟨x, y⟩
    omega
  · intro h
    refine ⟨⟨fun arcs ha => (h arcs ha).1, fun arcs ha => (h arcs ha).2.imp ?_⟩, fun arcs ha => (h arcs ha).2.imp ?_⟩ <;>
    · intro a b x
      omega

/-- **C46** Which automata are accepted: those with a symbol table that can be mapped whose arcs have the same input and
output label and, at each state, strictly increasing labels. -/
theorem C46_accepts {sort : List (Arc C) → List (Arc C)} {ku : Bool} {f : Fst C} :
    (∃ g, relabel decode ku sort keep f = some g) ↔
      (∀ st ∈ f.states, (∀ a ∈ st.arcs, a.ilabel = a.olabel) ∧ st.arcs.Pairwise fun a b => a.ilabel < b.ilabel) ∧
      ∃ t m, f.table = some t ∧ codepointMapping decode keep t = some m := by
  rw [← checked_iff]
  constructor
  · rintro ⟨g, h⟩
    obtain ⟨hp, t, m, ht, hm, _⟩ := relabel_parts h
    exact ⟨hp, t, m, ht, hm⟩
  · rintro ⟨hp, t, m, ht, hm⟩
    simp only [relabel]
    rw [if_pos hp, ht]
    simp only [hm]
    exact ⟨_, rfl⟩

/-- **C46** The result is again an acceptor with sorted labels. -/
theorem C46_sorted {sort : List (Arc C) → List (Arc C)} (hsort : ∀ l, (sort l).Perm l)
    (hsorted : ∀ l, (sort l).Pairwise fun a b => a.ilabel ≤ b.ilabel) {ku : Bool} {f g : Fst C}
    (h : relabel decode ku sort keep f = some g) :
    ∀ st ∈ g.states, (∀ a ∈ st.arcs, a.ilabel = a.olabel) ∧ st.arcs.Pairwise fun a b => a.ilabel ≤ b.ilabel := by
  obtain ⟨hp, t, m, ht, hm, rfl⟩ := relabel_parts h
  have hacc := checked_iff.1 hp
  intro st ha
  obtain ⟨old, hold, rfl⟩ := List.mem_map.1 ha
  refine ⟨fun a ha => ?_, hsorted _⟩
  obtain ⟨b, hb, rfl⟩ := List.mem_map.1 ((hsort _).mem_iff.1 ha)
  simp only [(hacc old hold).1 b hb]

/-- With the old symbol table lacking nothing, a table of letters and one kept symbol that collides
(the repository's own second test case) meets the hypotheses of `C46_distinct`. -/
example : ∃ m, codepointMapping ascii [k1] [(0, [60]), (1, [97]), (2, [98]), (3, [99]), (98, k1)] =
    some m ∧ m = [(1, 97), (2, 98), (3, 99), (98, 1)] := ⟨_, rfl, rfl⟩

end Mozolm.Relabel
