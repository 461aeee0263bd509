import Verif.Ppm.Teaching
import Verif.Props.PpmMemoryDemo

/-!
# C112: training from a text and teaching it are the same
-/

namespace Mozolm.Ppm
open XR
variable {o : Options XR} {K V : Nat} {ws : List (List Int)} {encode : Int → Str} {t : SymbolTable}

/-- teaching a text: each line once, from its beginning to its end -/
def lessons (text : List (List Int)) : List Call := text.map fun l => Call.learn [] (l ++ [0]) 1

/-- the symbols of the lines of a text -/
def labelsOf (t : SymbolTable) (encode : Int → Str) (text : List (List Int)) : List (List Int) :=
  text.map fun l => l.map fun c => t.findLabel (encode c)

/-- all characters of the text have symbols -/
def Spelt (t : SymbolTable) (encode : Int → Str) (text : List (List Int)) : Prop :=
  ∀ l ∈ text, ∀ c ∈ l, 0 < c ∧ 0 < t.findLabel (encode c)

theorem Made.known_begin {P : List (List Int × Int)} {past : List Int} {M : Memory} (h : Made K P past M) : M.known [0] :=
  (h.known [0]).2 (.inr (.inl rfl))

theorem uses_lessons {text : List (List Int)} (hK : 2 ≤ K) (ht : Spelt t encode text) : ∀ {ws : List (List Int)} {M : Memory},
    Made K (positions ws) [0] M →
    M.uses K V (alphabet t encode) (lessons text) =
      text.foldl (fun M l => M.learn K (alphabet t encode) 1 [0] (l ++ [0])) M := by
  induction text with
  | nil => intro ws M _; rfl
  | cons l text ih =>
    intro ws M h
    have e : M.use K V (alphabet t encode) (.learn [] (l ++ [0]) 1) = M.learn K (alphabet t encode) 1 [0] (l ++ [0]) := by
      show (if (0 : Int) < 1 then M.learn K (alphabet t encode) 1 (M.longest ((alphabet t encode).past [])) (l ++ [0]) else M) = _
      rw [if_pos (by norm_num)]
      have : M.longest ((alphabet t encode).past []) = [0] := Memory.longest_self ((h.known []).2 (.inl rfl)) h.known_begin
      rw [this]
    show (M.use K V (alphabet t encode) (.learn [] (l ++ [0]) 1)).uses K V (alphabet t encode) (lessons text) = _
    rw [e]
    have h1 := Made.lines (a := alphabet t encode) (label := fun c => t.findLabel (encode c)) (by simp [alphabet]) hK [l] (fun l' hl' c hc => by
      obtain rfl : l' = l := by simpa using hl'
      obtain ⟨k1, k2⟩ := ht l' (by simp) c hc
      refine ⟨?_, ?_, by omega⟩
      · simp only [alphabet]
        rw [if_neg (by omega), if_pos ⟨by omega, by omega⟩]
      · simp only [alphabet, typedLabel]
        rw [if_pos k2]) h
    exact ih (fun l' hl' => ht l' (by simp [hl'])) h1

theorem made_uses {text : List (List Int)} (hK : 2 ≤ K) (ht : Spelt t encode text) {M : Memory} (h : Made K (positions ws) [0] M) :
    Made K (positions (ws ++ labelsOf t encode text)) [0] (M.uses K V (alphabet t encode) (lessons text)) := by
  rw [uses_lessons hK ht h]
  refine Made.lines (a := alphabet t encode) (label := fun c => t.findLabel (encode c)) (by simp [alphabet]) hK text (fun l hl c hc => ?_) h
  obtain ⟨k1, k2⟩ := ht l hl c hc
  refine ⟨?_, ?_, by omega⟩
  · simp only [alphabet]
    rw [if_neg (by omega), if_pos ⟨by omega, by omega⟩]
  · simp only [alphabet, typedLabel]
    rw [if_pos k2]

/-- **C112** A memory that is taught the lines of a text, each once with its end, is the memory of the text. -/
theorem C112_memory {text : List (List Int)} (hK : 2 ≤ K) (hne : text ≠ []) (ht : Spelt t encode text) :
    Memory.blank.uses K V (alphabet t encode) (lessons text) = Memory.ofText K (labelsOf t encode text) := by
  have h := made_uses (V := V) (ws := []) hK ht (Made.blank hK)
  rw [List.nil_append] at h
  exact h.ofText hK (by simpa [labelsOf] using hne)

/-- **C112** A memory of a text that is taught more lines is the memory of the longer text. -/
theorem C112_more {text : List (List Int)} (hK : 2 ≤ K) (hne : ws ≠ []) (hw : ∀ w ∈ ws, (0 : Int) ∉ w) (ht : Spelt t encode text) :
    (Memory.ofText K ws).uses K V (alphabet t encode) (lessons text) = Memory.ofText K (ws ++ labelsOf t encode text) :=
  (made_uses hK ht (made_ofText hK hne hw)).ofText hK (by simp [hne])

theorem ofText_perm {ws' : List (List Int)} (h : ws.Perm ws') : Memory.ofText K ws = Memory.ofText K ws' := by
  have hp : (positions ws).Perm (positions ws') := h.flatMap_right _
  have ho : ∀ c y, occurrences ws c y = occurrences ws' c y := fun c y => hp.countP_eq _
  have hk : ∀ c, IsContext K ws c ↔ IsContext K ws' c := fun c => by
    unfold IsContext
    simp only [hp.mem_iff]
  have hL : ∀ c, Longer K ws c = Longer K ws' c := fun c => by
    ext d
    unfold Longer
    simp only [Set.mem_ofPred_eq, hk]
  have ht : ∀ c y, trainedCount K ws c y = trainedCount K ws' c y := fun c y => by
    by_cases hc : c = []
    · subst hc
      rw [trainedCount_nil, trainedCount_nil, hL]
      simp only [ho]
    · by_cases hl : (Longer K ws c).Nonempty
      · rw [trainedCount_longer hc hl, trainedCount_longer hc (by rw [← hL]; exact hl), hL]
        simp only [ho]
      · rw [trainedCount_longest hc hl, trainedCount_longest hc (by rw [← hL]; exact hl), ho]
  have e1 : IsContext K ws = IsContext K ws' := funext fun c => propext (hk c)
  have e2 : trainedCount K ws = trainedCount K ws' := funext fun c => funext (ht c)
  unfold Memory.ofText
  rw [e1, e2]

/-- **C112** The order in which the lines are taught does not matter. -/
theorem C112_order {text text' : List (List Int)} (hK : 2 ≤ K) (hp : text.Perm text') (ht : Spelt t encode text) :
    Memory.blank.uses K V (alphabet t encode) (lessons text) = Memory.blank.uses K V (alphabet t encode) (lessons text') := by
  by_cases hne : text = []
  · subst hne
    rw [List.nil_perm.1 hp]
  · rw [C112_memory hK hne ht, C112_memory hK (fun h => hne (by rw [h] at hp; exact hp.eq_nil)) fun l hl => ht l (hp.mem_iff.2 hl)]
    exact ofText_perm (hp.map _)

/-- teaching lines as often as given: each at once, from its beginning to its end -/
def lessonsN (text : List (List Int × Nat)) : List Call := text.map fun p => Call.learn [] (p.1 ++ [0]) (p.2 : Int)

/-- the text with its lines as often as given -/
def copied (text : List (List Int × Nat)) : List (List Int) := text.flatMap fun p => List.replicate p.2 p.1

theorem made_usesN {text : List (List Int × Nat)} (hK : 2 ≤ K) (ht : Spelt t encode (text.map Prod.fst)) :
    ∀ {ws : List (List Int)} {M : Memory}, Made K (positions ws) [0] M →
      Made K (positions (ws ++ labelsOf t encode (copied text))) [0] (M.uses K V (alphabet t encode) (lessonsN text)) := by
  induction text with
  | nil => intro ws M h; simpa [copied, labelsOf, lessonsN, Memory.uses] using h
  | cons p text ih =>
    intro ws M h
    obtain ⟨l, n⟩ := p
    have ht' : Spelt t encode (text.map Prod.fst) := fun l' hl' => ht l' (by simp only [List.map_cons]; exact List.mem_cons_of_mem _ hl')
    have e : labelsOf t encode (copied ((l, n) :: text)) =
        List.replicate n (l.map fun c => t.findLabel (encode c)) ++ labelsOf t encode (copied text) := by
      simp only [copied, labelsOf, List.flatMap_cons, List.map_append, List.map_replicate]
    show Made K _ [0] ((M.use K V (alphabet t encode) (.learn [] (l ++ [0]) (n : Int))).uses K V (alphabet t encode) (lessonsN text))
    rw [e, ← List.append_assoc]
    refine ih ht' ?_
    have hu : M.use K V (alphabet t encode) (.learn [] (l ++ [0]) (n : Int)) =
        if (0 : Int) < n then M.learn K (alphabet t encode) n [0] (l ++ [0]) else M := by
      show (if (0 : Int) < n then M.learn K (alphabet t encode) (n : Int).toNat (M.longest ((alphabet t encode).past [])) (l ++ [0]) else M) = _
      have : M.longest ((alphabet t encode).past []) = [0] := Memory.longest_self ((h.known []).2 (.inl rfl)) h.known_begin
      rw [this, Int.toNat_natCast]
    rw [hu]
    cases n with
    | zero => simpa using h
    | succ n =>
      rw [if_pos (by push_cast; omega)]
      exact h.copies (label := fun c => t.findLabel (encode c)) (by simp [alphabet]) hK n l fun c hc => by
        obtain ⟨k1, k2⟩ := ht l (by simp) c hc
        refine ⟨?_, ?_, by omega⟩
        · simp only [alphabet]
          rw [if_neg (by omega), if_pos ⟨by omega, by omega⟩]
        · simp only [alphabet, typedLabel]
          rw [if_pos k2]

/-- **C112** A memory that is taught lines, each as often as given and at once, is the memory of the text with the lines that often. -/
theorem C112_counts {text : List (List Int × Nat)} (hK : 2 ≤ K) (hne : ∃ p ∈ text, 0 < p.2) (ht : Spelt t encode (text.map Prod.fst)) :
    Memory.blank.uses K V (alphabet t encode) (lessonsN text) = Memory.ofText K (labelsOf t encode (copied text)) := by
  have h := made_usesN (V := V) (ws := []) hK ht (Made.blank hK)
  rw [List.nil_append] at h
  refine h.ofText hK fun e => ?_
  obtain ⟨p, h1, h2⟩ := hne
  have h3 : p.1 ∈ copied text := List.mem_flatMap.2 ⟨p, h1, List.mem_replicate.2 ⟨by omega, rfl⟩⟩
  have : copied text = [] := by simpa [labelsOf] using e
  rw [this] at h3
  cases h3

/-! ## The symbols -/

/-- the table with new characters, in order -/
def withChars : List Str → SymbolTable → SymbolTable
  | [], t => t
  | c :: cs, t => withChars cs (if t.findLabel c < 0 then t ++ [(nextLabel t, c)] else t)

theorem withChars_append (cs ds : List Str) : ∀ t : SymbolTable, withChars (cs ++ ds) t = withChars ds (withChars cs t) := by
  induction cs with
  | nil => intro t; rfl
  | cons c cs ih => intro t; exact ih _

theorem withChars_kept (cs : List Str) : ∀ t : SymbolTable, ∃ r, withChars cs t = t ++ r := by
  induction cs with
  | nil => intro t; exact ⟨[], by simp [withChars]⟩
  | cons c cs ih =>
    intro t
    rw [withChars]
    split
    · obtain ⟨r, h⟩ := ih (t ++ [(nextLabel t, c)])
      exact ⟨_, h.trans (List.append_assoc _ _ _)⟩
    · exact ih t

theorem getSymsVector_table (cs : List Str) : ∀ {t : SymbolTable} {r : List Int × SymbolTable}, getSymsVector cs t = pure r → r.2 = withChars cs t := by
  induction cs with
  | nil => intro t r h; rw [← Res.pure_inj h]; rfl
  | cons c cs ih =>
    intro t r h
    unfold getSymsVector at h
    simp only at h
    rw [withChars]
    generalize (if t.findLabel c < 0 then t ++ [(nextLabel t, c)] else t) = t' at h ⊢
    split at h
    · cases h
    · obtain ⟨r', h1, h2⟩ := Res.bind_eq.mp h
      have := ih h1
      rw [← Res.pure_inj h2]
      exact this

theorem encodeLines_table (ls : List (List Str)) : ∀ {t : SymbolTable} {r : List (List Int) × SymbolTable},
    encodeLines ls t = pure r → r.2 = withChars ls.flatten t := by
  induction ls with
  | nil => intro t r h; rw [← Res.pure_inj h]; rfl
  | cons l ls ih =>
    intro t r h
    unfold encodeLines at h
    rw [List.flatten_cons, withChars_append]
    split at h
    · rename_i hx
      subst hx
      exact ih h
    · obtain ⟨r1, h1, h⟩ := Res.bind_eq.mp h
      obtain ⟨r2, h2, h⟩ := Res.bind_eq.mp h
      have := ih h2
      rw [← Res.pure_inj h, ← getSymsVector_table l h1]
      exact this

theorem addChars_table {A : Arith} (u : Nat) (cs : List Str) : ∀ {r r' : Fst A.C × SymbolTable}, addChars A u cs r = pure r' → r'.2 = withChars cs r.2 := by
  induction cs with
  | nil => intro r r' h; rw [← Res.pure_inj h]; rfl
  | cons c cs ih =>
    intro r r' h
    obtain ⟨f, t⟩ := r
    unfold addChars at h
    split at h
    · rename_i hx
      obtain ⟨f', _, h⟩ := Res.bind_eq.mp h
      rw [withChars, if_pos hx]
      exact ih h
    · rename_i hx
      rw [withChars, if_neg hx]
      exact ih h

theorem addLines_table {A : Arith} (ls : List (List Str)) : ∀ {r r' : Fst A.C × SymbolTable}, addLines A ls r = pure r' → r'.2 = withChars ls.flatten r.2 := by
  induction ls with
  | nil => intro r r' h; rw [← Res.pure_inj h]; rfl
  | cons l ls ih =>
    intro r r' h
    unfold addLines addExtraCharacters at h
    obtain ⟨r1, h1, h⟩ := Res.bind_eq.mp h
    obtain ⟨u, _, h1⟩ := Res.bind_eq.mp h1
    rw [List.flatten_cons, withChars_append]
    split at h1
    · cases h1
    · rw [← addChars_table _ l h1]
      exact ih h

theorem read_symbols {A : Arith} {o : Options A.D} {src : Source A.C} {vocab : Option (Option (List (List Str)))} {m : Model A}
    (h : read A o src vocab = pure m) : ∃ r r', readSource A src vocab.isSome = pure r ∧ readVocab A src vocab r = pure r' ∧ m.symbols = r'.2 := by
  unfold read at h
  obtain ⟨r, h1, h⟩ := Res.bind_eq.mp h
  obtain ⟨r', h2, h⟩ := Res.bind_eq.mp h
  obtain ⟨c, hc, h⟩ := Res.bind_eq.mp h
  rw [← Res.pure_inj h]
  exact ⟨r, r', h1, h2, rfl⟩

/-- the symbols of a model trained from a file -/
theorem readText_table {counter : Nat → List (List Int) → Fst XR} {lines : List (List Str)} (hne : lines ≠ []) {m : Model Arith.xr}
    (h : readText counter o (some lines) none = pure m) : m.symbols = withChars lines.flatten epsilonTable := by
  unfold readText at h
  simp only at h
  obtain ⟨r, h1, h⟩ := Res.bind_eq.mp h
  obtain ⟨r1, r2, k1, k2, k3⟩ := read_symbols h
  rw [k3, ← Res.pure_inj (show (pure r1 : Res _) = pure r2 from k2), ← Res.pure_inj (show (pure r : Res _) = pure r1 from k1)]
  cases lines with
  | nil => exact absurd rfl hne
  | cons l ls =>
    unfold trainLines trainFromText at h1
    obtain ⟨r3, e1, h1⟩ := Res.bind_eq.mp h1
    obtain ⟨f, _, h1⟩ := Res.bind_eq.mp h1
    obtain ⟨f', _, h1⟩ := Res.bind_eq.mp h1
    rw [← Res.pure_inj h1]
    exact encodeLines_table _ e1

/-- the symbols of a model read from a vocabulary -/
theorem read_vocab_table {A : Arith} {o : Options A.D} {ls : List (List Str)} {m : Model A} (h : read A o .none (some (some ls)) = pure m) :
    m.symbols = withChars ls.flatten epsilonTable := by
  obtain ⟨r1, r2, k1, k2, k3⟩ := read_symbols h
  rw [k3]
  have e : (makeEmpty A, epsilonTable) = r1 := Res.pure_inj (show (pure (makeEmpty A, epsilonTable) : Res _) = pure r1 from k1)
  cases ls with
  | nil => cases k2
  | cons l ls =>
    obtain ⟨r', e1, e2⟩ := Res.bind_eq.mp (show (addLines A (l :: ls) r1 >>= fun r' => pure (sortIfEmpty A .none r'.1, r'.2)) = pure r2 from k2)
    rw [← Res.pure_inj e2]
    have := addLines_table _ e1
    rw [← e] at this
    exact this

/-! ## Models -/

/-- a file trained from, and the same file as a vocabulary -/
theorem same_file {counter : Nat → List (List Int) → Fst XR} (hc : CounterOk counter) (ha : o.alpha ≠ .nan) (hb : o.beta ≠ .nan)
    (hs : o.static = false) (horder : (K : Int) = if o.maxOrder > 0 then o.maxOrder else 4) (h2 : 2 ≤ K)
    {text : List (List Int)} (hne : text ≠ []) (hl : ∀ l ∈ text, l ≠ []) (hpos : ∀ l ∈ text, ∀ c ∈ l, 0 < c)
    (heps : ∀ l ∈ text, ∀ c ∈ l, encode c ≠ epsilonName) :
    ∃ m1 m2 : Model Arith.xr,
      readText counter o (some (text.map fun l => l.map encode)) none = pure m1 ∧
      read Arith.xr o .none (some (some (text.map fun l => l.map encode))) = pure m2 ∧
      m2.symbols = m1.symbols ∧ labelLines m1.symbols (text.map fun l => l.map encode) = labelsOf m1.symbols encode text ∧ (∀ w ∈ labelsOf m1.symbols encode text, (0 : Int) ∉ w) ∧
      Learner o K (Memory.ofText K (labelsOf m1.symbols encode text)) m1 ∧ Learner o K Memory.blank m2 ∧ Spelt m2.symbols encode text := by
  set lines : List (List Str) := text.map fun l => l.map encode with hlines
  have hmem : ∀ {c : Str}, c ∈ lines.flatten → ∃ l ∈ text, ∃ x ∈ l, encode x = c := by
    intro c hcm
    obtain ⟨l', h1, h2⟩ := List.mem_flatten.1 hcm
    obtain ⟨l, h3, rfl⟩ := List.mem_map.1 h1
    obtain ⟨x, h4, h5⟩ := List.mem_map.1 h2
    exact ⟨l, h3, x, h4, h5⟩
  have hmem' : ∀ {l : List Int} {x : Int}, l ∈ text → x ∈ l → encode x ∈ lines.flatten := fun {l x} h1 h2 =>
    List.mem_flatten.2 ⟨_, List.mem_map.2 ⟨l, h1, rfl⟩, List.mem_map.2 ⟨x, h2, rfl⟩⟩
  have heps' : epsilonName ∉ lines.flatten := fun h => by
    obtain ⟨l, h1, x, h2, h3⟩ := hmem h
    exact heps l h1 x h2 h3
  obtain ⟨l0, hl0⟩ := List.exists_mem_of_ne_nil text hne
  obtain ⟨x0, hx0⟩ := List.exists_mem_of_ne_nil l0 (hl l0 hl0)
  have hlne : lines ≠ [] := by simpa [hlines] using hne
  obtain ⟨m1, e1, s1, L1⟩ := text_learner hc ha hb hs horder h2 (lines := lines)
    ⟨_, List.mem_map.2 ⟨l0, hl0, rfl⟩, by simpa using hl l0 hl0⟩ heps' (vocab := none) (by simp)
  obtain ⟨m2, e2, s2, L2⟩ := vocabulary_learner ha hb hs (order := K) (by omega) (ls := lines) ⟨_, hmem' hl0 hx0, heps l0 hl0 x0 hx0⟩
  have hsym : m2.symbols = m1.symbols := (read_vocab_table e2).trans (readText_table hlne e1).symm
  have hch : m2.chars = m1.chars := by unfold Model.chars; rw [hsym]
  have hlab : labelLines m1.symbols lines = labelsOf m1.symbols encode text := by
    have hf : lines.filter (fun l => !l.isEmpty) = lines := List.filter_eq_self.2 fun l' h1 => by
      obtain ⟨l, h3, rfl⟩ := List.mem_map.1 h1
      simpa using hl l h3
    unfold labelLines labelsOf
    rw [hf, hlines, List.map_map]
    refine List.map_congr_left fun l _ => ?_
    simp
  have hsp : Spelt m2.symbols encode text := by
    intro l h3 c h4
    refine ⟨hpos l h3 c h4, ?_⟩
    obtain ⟨_, _, _, hd, _⟩ := L2.initial.known (laws_of o ha hb)
    have hk : ∃ r, m2.symbols = epsilonTable ++ r := by rw [read_vocab_table e2]; exact withChars_kept _ _
    exact hd.find_pos hk ((s2 _).2 (.inr (hmem' h3 h4))) (heps l h3 c h4)
  have hz : ∀ w ∈ labelsOf m1.symbols encode text, (0 : Int) ∉ w := by
    intro w hw h0
    obtain ⟨l, h3, rfl⟩ := List.mem_map.1 hw
    obtain ⟨c, h4, h5⟩ := List.mem_map.1 h0
    have := (hsp l h3 c h4).2
    rw [hsym] at this
    omega
  rw [hlab] at L1
  exact ⟨m1, m2, e1, e2, hsym, hlab, hz, L1, L2, hsp⟩

/-- **C112** A model that is trained from a file and the model that has the file as its vocabulary and is taught its lines have the same
symbols, and go on alike: after any further calls they give the same answer for every text. -/
theorem C112_training {counter : Nat → List (List Int) → Fst XR} (hc : CounterOk counter) (ha : o.alpha ≠ .nan) (hb : o.beta ≠ .nan)
    (hs : o.static = false) (horder : (K : Int) = if o.maxOrder > 0 then o.maxOrder else 4) (h2 : 2 ≤ K)
    {text : List (List Int)} (hne : text ≠ []) (hl : ∀ l ∈ text, l ≠ []) (hpos : ∀ l ∈ text, ∀ c ∈ l, 0 < c)
    (heps : ∀ l ∈ text, ∀ c ∈ l, encode c ≠ epsilonName) :
    ∃ m1 m2 : Model Arith.xr,
      readText counter o (some (text.map fun l => l.map encode)) none = pure m1 ∧
      read Arith.xr o .none (some (some (text.map fun l => l.map encode))) = pure m2 ∧
      m2.symbols = m1.symbols ∧
      ∀ calls : List Call, ∃ (as1 as2 : List (Answer Arith.xr)) (n1 n2 : Model Arith.xr),
        runCalls encode calls m1 = .ok (as1, n1) ∧ runCalls encode (lessons text ++ calls) m2 = .ok (as2, n2) ∧
        ∀ past, ∃ (r : LMScores XR) (k1 k2 : Model Arith.xr),
          (Call.ask past).run encode n1 = .ok (.scores (some r), k1) ∧ (Call.ask past).run encode n2 = .ok (.scores (some r), k2) := by
  obtain ⟨m1, m2, e1, e2, hsym, _, _, L1, L2, hsp⟩ := same_file hc ha hb hs horder h2 hne hl hpos heps
  have hch : m2.chars = m1.chars := by unfold Model.chars; rw [hsym]
  have hM : Memory.blank.uses K m2.chars (alphabet m2.symbols encode) (lessons text) = Memory.ofText K (labelsOf m1.symbols encode text) := by
    rw [C112_memory h2 hne hsp, hsym]
  refine ⟨m1, m2, e1, e2, hsym, fun calls => ?_⟩
  obtain ⟨as1, n1, r1, a1⟩ := C76_learner L1 encode calls
  obtain ⟨as2, n2, r2, a2⟩ := C76_learner L2 encode (lessons text ++ calls)
  refine ⟨as1, as2, n1, n2, r1, r2, fun past => ?_⟩
  have : Memory.blank.uses K m2.chars (alphabet m2.symbols encode) (lessons text ++ calls) =
      (Memory.ofText K (labelsOf m1.symbols encode text)).uses K m1.chars (alphabet m1.symbols encode) calls := by
    rw [← hM, hsym, hch]
    unfold Memory.uses
    rw [List.foldl_append]
  rw [this, hsym, hch] at a2
  exact a1.unique a2 past

/-- **C112** Teaching a line several times at once is as training from a file with the line that often: the model trained from the file with
the copies and the model with the file as its vocabulary that is taught each line with its count go on alike. -/
theorem C112_copies {counter : Nat → List (List Int) → Fst XR} (hc : CounterOk counter) (ha : o.alpha ≠ .nan) (hb : o.beta ≠ .nan)
    (hs : o.static = false) (horder : (K : Int) = if o.maxOrder > 0 then o.maxOrder else 4) (h2 : 2 ≤ K)
    {text : List (List Int × Nat)} (hne : text ≠ []) (hn : ∀ p ∈ text, 0 < p.2) (hl : ∀ p ∈ text, p.1 ≠ []) (hpos : ∀ p ∈ text, ∀ c ∈ p.1, 0 < c)
    (heps : ∀ p ∈ text, ∀ c ∈ p.1, encode c ≠ epsilonName) :
    ∃ m1 m2 : Model Arith.xr,
      readText counter o (some ((copied text).map fun l => l.map encode)) none = pure m1 ∧
      read Arith.xr o .none (some (some ((copied text).map fun l => l.map encode))) = pure m2 ∧
      m2.symbols = m1.symbols ∧
      ∀ calls : List Call, ∃ (as1 as2 : List (Answer Arith.xr)) (n1 n2 : Model Arith.xr),
        runCalls encode calls m1 = .ok (as1, n1) ∧ runCalls encode (lessonsN text ++ calls) m2 = .ok (as2, n2) ∧
        ∀ past, ∃ (r : LMScores XR) (k1 k2 : Model Arith.xr),
          (Call.ask past).run encode n1 = .ok (.scores (some r), k1) ∧ (Call.ask past).run encode n2 = .ok (.scores (some r), k2) := by
  have hmem : ∀ {l : List Int}, l ∈ copied text → ∃ p ∈ text, p.1 = l := by
    intro l h
    obtain ⟨p, h1, h3⟩ := List.mem_flatMap.1 h
    exact ⟨p, h1, (List.eq_of_mem_replicate h3).symm⟩
  have hmem' : ∀ p ∈ text, p.1 ∈ copied text := fun p h1 =>
    List.mem_flatMap.2 ⟨p, h1, List.mem_replicate.2 ⟨by have := hn p h1; omega, rfl⟩⟩
  obtain ⟨p0, hp0⟩ := List.exists_mem_of_ne_nil text hne
  obtain ⟨m1, m2, e1, e2, hsym, _, _, L1, L2, hsp⟩ := same_file (encode := encode) hc ha hb hs horder h2 (text := copied text)
    (fun h => by have := hmem' p0 hp0; rw [h] at this; cases this)
    (fun l h => by obtain ⟨p, h1, rfl⟩ := hmem h; exact hl p h1)
    (fun l h => by obtain ⟨p, h1, rfl⟩ := hmem h; exact hpos p h1)
    (fun l h => by obtain ⟨p, h1, rfl⟩ := hmem h; exact heps p h1)
  have hch : m2.chars = m1.chars := by unfold Model.chars; rw [hsym]
  have hM : Memory.blank.uses K m2.chars (alphabet m2.symbols encode) (lessonsN text) = Memory.ofText K (labelsOf m1.symbols encode (copied text)) := by
    rw [C112_counts h2 ⟨p0, hp0, hn p0 hp0⟩ fun l h => by
      obtain ⟨p, h1, rfl⟩ := List.mem_map.1 h
      exact hsp _ (hmem' p h1), hsym]
  refine ⟨m1, m2, e1, e2, hsym, fun calls => ?_⟩
  obtain ⟨as1, n1, r1, a1⟩ := C76_learner L1 encode calls
  obtain ⟨as2, n2, r2, a2⟩ := C76_learner L2 encode (lessonsN text ++ calls)
  refine ⟨as1, as2, n1, n2, r1, r2, fun past => ?_⟩
  have : Memory.blank.uses K m2.chars (alphabet m2.symbols encode) (lessonsN text ++ calls) =
      (Memory.ofText K (labelsOf m1.symbols encode (copied text))).uses K m1.chars (alphabet m1.symbols encode) calls := by
    rw [← hM, hsym, hch]
    unfold Memory.uses
    rw [List.foldl_append]
  rw [this, hsym, hch] at a2
  exact a1.unique a2 past

end Mozolm.Ppm
