import Verif.Props.Teaching
import Verif.Props.Book

/-!
# C112: a server that is taught a text line by line
-/

namespace Mozolm.System
open Mozolm.Hub Mozolm.Server
open Mozolm.Ppm (Memory Learner Made Spelt labelsOf lessons lessonsN copied positions positionsFrom)
variable {encode : Int → Str} {fuel : Nat} {o : Ppm.Options XR} {K : Nat} {M M0 : Memory} {m0 : Ppm.Model Arith.xr}
  {orderN : List (Int × Nat) → List (Int × Nat)} {orderV : List (Str × XR) → List (Str × XR)}
  {b : Book} {a : Ppm.Alphabet} {ws : List (List Int)}

/-- requests that teach a text: each line once, from its beginning to its end -/
def teaching (text : List (List Int)) : List Request := text.map fun l => .updateLMScores 0 (l ++ [0]) 1

/-- requests that teach lines as often as given: each at once, from its beginning to its end -/
def teachingN (text : List (List Int × Nat)) : List Request := text.map fun p => .updateLMScores 0 (p.1 ++ [0]) (p.2 : Int)

/-- a request that asks only -/
def Asks : Request → Prop
  | .updateLMScores _ _ _ => False
  | _ => True

/-- characters only -/
def Printed (text : List Int) : Prop := ∀ c ∈ text, 0 < c

/-- the pages of printed texts have the longest contexts -/
def Fresh (a : Ppm.Alphabet) (b : Book) : Prop := ∀ q ∈ b.pages, Printed q.text → q.ctx = b.memory.longest (a.past q.text)

theorem past_snoc (a : Ppm.Alphabet) (text : List Int) (c : Int) : a.past (text ++ [c]) = a.typed c :: a.past text := by
  simp [Ppm.Alphabet.past]

theorem Printed.init {text : List Int} {c : Int} (h : Printed (text ++ [c])) : Printed text := fun x hx => h x (by simp [hx])

theorem Fresh.turn {V : Nat} (hb : Fresh a b) (hg : b.memory.Grounded K V) (ht : ∀ c, a.typed c ≠ 0) {p : Page}
    (hp : Printed p.text → p.ctx = b.memory.longest (a.past p.text)) (c : Int) :
    Fresh a (b.turn a p c).1 ∧ (Printed (b.turn a p c).2.text → (b.turn a p c).2.ctx = b.memory.longest (a.past (b.turn a p c).2.text)) := by
  have key : Printed (p.text ++ [c]) → b.memory.longest (a.typed c :: p.ctx) = b.memory.longest (a.past (p.text ++ [c])) := fun h => by
    rw [hp h.init, hg.longest_cons (ht c), past_snoc]
  unfold Book.turn
  split
  · rename_i q hq
    exact ⟨hb, hb q (List.mem_of_find?_eq_some hq)⟩
  · refine ⟨fun q hq hpr => ?_, key⟩
    rcases List.mem_append.1 hq with h1 | h1
    · exact hb q h1 hpr
    · obtain rfl := List.mem_singleton.1 h1
      exact key hpr

theorem Fresh.read {V : Nat} (ht : ∀ c, a.typed c ≠ 0) (cs : List Int) : ∀ {b : Book} {p : Page}, Fresh a b → b.memory.Grounded K V →
    (Printed p.text → p.ctx = b.memory.longest (a.past p.text)) →
    Fresh a (b.read a p cs).1 ∧ (Printed (b.read a p cs).2.text → (b.read a p cs).2.ctx = b.memory.longest (a.past (b.read a p cs).2.text)) := by
  induction cs with
  | nil => intro b p hb _ hp; exact ⟨hb, hp⟩
  | cons c cs ih =>
    intro b p hb hg hp
    obtain ⟨h1, h2⟩ := hb.turn hg ht hp c
    have hm := turn_memory a b p c
    have := ih (b := (b.turn a p c).1) (p := (b.turn a p c).2) h1 (by rw [hm]; exact hg) (by rw [hm]; exact h2)
    rw [hm] at this
    exact this

/-- the first page -/
theorem begin_fresh {V : Nat} (hg : b.memory.Grounded K V) : Page.first.ctx = b.memory.longest (a.past Page.first.text) :=
  (b.memory.longest_self hg.nil hg.start).symm

theorem Fresh.page {V : Nat} (hb : Fresh a b) (hg : b.memory.Grounded K V) (s : Int) : Printed (b.page s).text →
    (b.page s).ctx = b.memory.longest (a.past (b.page s).text) := by
  unfold Book.page
  split
  · exact fun _ => begin_fresh hg
  · cases hq : b.pages[s.toNat]? with
    | none => exact fun _ => begin_fresh hg
    | some q => exact hb q (List.mem_of_getElem? hq)

/-- asking keeps the pages right, and the memory -/
theorem Fresh.asks {V : Nat} (ht : ∀ c, a.typed c ≠ 0) (reqs : List Request) : ∀ {b : Book}, Fresh a b → b.memory.Grounded K V →
    (∀ r ∈ reqs, Asks r) → Fresh a (b.serveAll K a reqs) ∧ (b.serveAll K a reqs).memory = b.memory := by
  induction reqs with
  | nil => intro b hb _ _; exact ⟨hb, rfl⟩
  | cons r rs ih =>
    intro b hb hg hr
    have key : Fresh a (b.serve K a r) ∧ (b.serve K a r).memory = b.memory := by
      cases r with
      | getNextState text s => exact ⟨(Fresh.read ht text hb hg (hb.page hg _)).1, read_memory _ _ _ _⟩
      | getLMScores text s => exact ⟨(Fresh.read ht text hb hg (hb.page hg _)).1, read_memory _ _ _ _⟩
      | updateLMScores s cs n => exact (hr (.updateLMScores s cs n) (by simp)).elim
    have := ih key.1 (by rw [key.2]; exact hg) fun r' h' => hr r' (by simp [h'])
    rw [key.2] at this
    exact this

/-! ## Teaching -/

/-- the contexts of the pages of printed texts are as long as contexts can be -/
structure Deep (K : Nat) (a : Ppm.Alphabet) (ws : List (List Int)) (b : Book) : Prop where
  made : Made K (positions ws) [0] b.memory
  first : b.pages[0]? = some Page.first
  deep : ∀ q ∈ b.pages, Printed q.text → q.ctx = (a.past q.text).take (K - 1) ∧ (a.past q.text = [0] ∨ ∃ p ∈ positions ws, p.1 = a.past q.text)

theorem made_longest {P : List (List Int × Int)} {past0 past : List Int} (h : Made K P past0 M) (hK : 2 ≤ K)
    (hp : past = [0] ∨ ∃ p ∈ P, p.1 = past) : M.longest past = past.take (K - 1) := by
  refine (M.longest_eq ((h.known []).2 (.inl rfl)) ?_ (List.take_prefix _ _) fun e he hpre => ?_).symm
  · rcases hp with rfl | ⟨p, h1, rfl⟩
    · rw [Made.zero_taken hK]; exact h.known_begin
    · exact (h.known _).2 (.inr (.inr ⟨by rw [List.length_take]; omega, .inl ⟨p, h1, List.take_prefix _ _⟩⟩))
  · rw [List.length_take]
    have := hpre.length_le
    rcases (h.known e).1 he with rfl | rfl | ⟨h2, _⟩
    · simp
    · simp at this ⊢; omega
    · omega

theorem Deep.fresh (h : Deep K a ws b) (hK : 2 ≤ K) : Fresh a b := fun q hq hpr => by
  obtain ⟨h1, h2⟩ := h.deep q hq hpr
  rw [h1, made_longest h.made hK h2]

/-- the pages after reading -/
theorem read_pages (a : Ppm.Alphabet) (cs : List Int) : ∀ (b : Book) (p : Page), ∀ q ∈ (b.read a p cs).1.pages,
    q ∈ b.pages ∨ (p.text <+: q.text ∧ q.text <+: p.text ++ cs) := by
  induction cs with
  | nil => intro b p q hq; exact .inl hq
  | cons c cs ih =>
    intro b p q hq
    have ht := (turn_texts a b p c).2
    rcases ih _ _ q hq with h1 | ⟨h1, h2⟩
    · have : q ∈ b.pages ∨ q.text = p.text ++ [c] := by
        unfold Book.turn at h1
        split at h1
        · exact .inl h1
        · rcases List.mem_append.1 h1 with h2 | h2
          · exact .inl h2
          · rw [List.mem_singleton.1 h2]; exact .inr rfl
      rcases this with h3 | h3
      · exact .inl h3
      · right
        rw [h3]
        exact ⟨List.prefix_append _ _, by simp⟩
    · right
      rw [ht] at h1 h2
      exact ⟨(List.prefix_append _ _).trans h1, by simpa using h2⟩

theorem positions_of_prefix {label : Int → Int} (l : List Int) : ∀ {past u : List Int}, u <+: l →
    ∃ p ∈ positionsFrom past (l.map label), p.1 = (u.map label).reverse ++ past := by
  induction l with
  | nil =>
    intro past u h
    rw [List.prefix_nil.1 h]
    exact ⟨_, List.mem_singleton.2 rfl, rfl⟩
  | cons c l ih =>
    intro past u h
    cases u with
    | nil => exact ⟨_, List.mem_cons_self, rfl⟩
    | cons d u =>
      obtain ⟨rfl, h2⟩ := List.cons_prefix_cons.1 h
      obtain ⟨p, h3, h4⟩ := ih (past := label d :: past) h2
      exact ⟨p, List.mem_cons_of_mem _ h3, by rw [h4]; simp⟩

theorem Deep.lesson {label : Int → Int} (h : Deep K a ws b) (hK : 2 ≤ K) (he : a.taught 0 = some 0) (n : Nat) {l : List Int}
    (hl : ∀ s ∈ l, a.taught s = some (label s) ∧ a.typed s = label s ∧ label s ≠ 0) :
    Deep K a (ws ++ List.replicate (n + 1) (l.map label)) (b.serve K a (.updateLMScores 0 (l ++ [0]) ((n + 1 : Nat) : Int))) ∧
      (b.serve K a (.updateLMScores 0 (l ++ [0]) ((n + 1 : Nat) : Int))).memory = b.memory.learn K a (n + 1) [0] (l ++ [0]) := by
  have h0 : toInt32 0 = 0 := by decide
  have hp0 : b.page 0 = Page.first := page_get (k := 0) h.first
  generalize hcs : l ++ [0] = cs
  have hpre := read_prefix a cs b Page.first
  have hm1 := read_memory a cs b Page.first
  have hr1 := read_pages a cs b Page.first
  generalize hb1 : (b.read a Page.first cs).1 = b1 at hpre hm1 hr1
  have hf1 : b1.pages[0]? = some Page.first := by
    obtain ⟨e, h1⟩ := hpre
    rw [← h1, List.getElem?_append_left (by
      by_contra hh
      have := h.first
      rw [List.getElem?_eq_none (by omega)] at this
      cases this)]
    exact h.first
  have hpos : 0 < b1.pages.length := by
    by_contra hh
    rw [List.getElem?_eq_none (by omega)] at hf1
    cases hf1
  have hp1 : b1.page 0 = Page.first := page_get (k := 0) hf1
  have hpre2 := read_prefix a cs b1 Page.first
  have hr2 := read_pages a cs b1 Page.first
  have hserve : b.serve K a (.updateLMScores 0 cs ((n + 1 : Nat) : Int)) =
      ⟨counted K a b.memory [0] cs ((n + 1 : Nat) : Int), (b1.read a Page.first cs).1.pages.map (Page.after a (counted K a b.memory [0] cs ((n + 1 : Nat) : Int)) Page.first cs)⟩ := by
    simp only [Book.serve, h0, hp0, hb1]
    rw [if_pos ⟨le_refl _, by exact_mod_cast hpos⟩]
    simp only [Book.count, hp1, hm1]
    rfl
  have hmem : counted K a b.memory [0] cs ((n + 1 : Nat) : Int) = b.memory.learn K a (n + 1) [0] cs := by
    unfold counted
    rw [if_pos (by push_cast; omega)]
    rfl
  rw [hserve, hmem]
  have hmade := h.made.copies (a := a) (label := label) he hK n l hl
  rw [hcs] at hmade
  have hmade2 : Made K (positions (ws ++ List.replicate (n + 1) (l.map label))) [0] (b.memory.learn K a (n + 1) [0] cs) := hmade
  refine ⟨⟨hmade2, ?_, fun q hq hpr => ?_⟩, rfl⟩
  · simp only [List.getElem?_map]
    obtain ⟨e, h1⟩ := hpre2
    rw [← h1, List.getElem?_append_left hpos, hf1]
    simp only [Option.map_some]
    unfold Page.after
    rw [if_pos ⟨List.prefix_rfl, List.nil_prefix⟩]
    show some (Page.mk [] (Memory.longest _ [0])) = _
    rw [made_longest hmade2 hK (.inl rfl), Made.zero_taken hK]
    rfl
  · simp only at hq
    obtain ⟨q0, h1, rfl⟩ := List.mem_map.1 hq
    rw [after_text] at hpr ⊢
    have hmono : ∀ p ∈ positions ws, p ∈ positions (ws ++ List.replicate (n + 1) (l.map label)) := fun p hp => by
      simp only [positions, List.flatMap_append, List.mem_append]; exact .inl hp
    by_cases hpp : q0.text <+: cs
    · have e1 : Page.after a (b.memory.learn K a (n + 1) [0] cs) Page.first cs q0 =
          ⟨q0.text, (b.memory.learn K a (n + 1) [0] cs).longest (a.past q0.text)⟩ := by
        unfold Page.after
        rw [if_pos ⟨List.nil_prefix, hpp⟩]
        rfl
      have hul : q0.text <+: l := by
        rw [← hcs] at hpp
        rcases List.prefix_concat_iff.1 hpp with h2 | h2
        · have := hpr 0 (by rw [h2]; simp)
          omega
        · exact h2
      obtain ⟨p, h2, h3⟩ := positions_of_prefix (label := label) l (past := [0]) hul
      have h4 : p.1 = a.past q0.text := by
        rw [h3]
        unfold Ppm.Alphabet.past
        congr 2
        refine List.map_congr_left fun c hc => ((hl c (hul.subset hc)).2.1).symm
      have h5 : a.past q0.text = [0] ∨ ∃ p ∈ positions (ws ++ List.replicate (n + 1) (l.map label)), p.1 = a.past q0.text :=
        .inr ⟨p, by
          simp only [positions, List.flatMap_append, List.mem_append]
          exact .inr (List.mem_flatMap.2 ⟨_, List.mem_replicate.2 ⟨by omega, rfl⟩, h2⟩), h4⟩
      rw [e1]
      exact ⟨made_longest hmade2 hK h5, h5⟩
    · have e1 : Page.after a (b.memory.learn K a (n + 1) [0] cs) Page.first cs q0 = q0 := by
        unfold Page.after
        rw [if_neg fun h => hpp h.2]
      have h2 : q0 ∈ b.pages := by
        rcases hr2 q0 h1 with h2 | ⟨_, h2⟩
        · rcases hr1 q0 h2 with h3 | ⟨_, h3⟩
          · exact h3
          · exact absurd h3 hpp
        · exact absurd h2 hpp
      obtain ⟨k1, k2⟩ := h.deep q0 h2 hpr
      rw [e1]
      exact ⟨k1, k2.imp_right fun ⟨p, p1, p2⟩ => ⟨p, hmono p p1, p2⟩⟩

theorem Deep.teaching {t : SymbolTable} (hK : 2 ≤ K) (text : List (List Int × Nat)) : ∀ {ws : List (List Int)} {b : Book},
    Deep K (Ppm.alphabet t encode) ws b → Spelt t encode (text.map Prod.fst) → (∀ p ∈ text, 0 < p.2) →
    Deep K (Ppm.alphabet t encode) (ws ++ labelsOf t encode (copied text)) (b.serveAll K (Ppm.alphabet t encode) (teachingN text)) := by
  induction text with
  | nil => intro ws b h _ _; simpa [labelsOf, copied, Book.serveAll, teachingN] using h
  | cons p text ih =>
    intro ws b h ht hn
    obtain ⟨l, n⟩ := p
    obtain ⟨n, rfl⟩ : ∃ k, n = k + 1 := ⟨n - 1, by have := hn (l, n) (by simp); simp only at this; omega⟩
    have h1 := (h.lesson (label := fun c => t.findLabel (encode c)) hK (by simp [Ppm.alphabet]) n (l := l) fun c hc => by
      obtain ⟨k1, k2⟩ := ht l (by simp) c hc
      refine ⟨?_, ?_, by omega⟩
      · simp only [Ppm.alphabet]
        rw [if_neg (by omega), if_pos ⟨by omega, by omega⟩]
      · simp only [Ppm.alphabet, Ppm.typedLabel]
        rw [if_pos k2]).1
    have h2 := ih h1 (fun l' hl' => ht l' (by simp only [List.map_cons]; exact List.mem_cons_of_mem _ hl')) fun p hp => hn p (by simp [hp])
    rw [List.append_assoc] at h2
    have e : labelsOf t encode (copied ((l, n + 1) :: text)) =
        List.replicate (n + 1) (l.map fun c => t.findLabel (encode c)) ++ labelsOf t encode (copied text) := by
      simp only [copied, labelsOf, List.flatMap_cons, List.map_append, List.map_replicate]
    rw [e]
    exact h2

/-- nothing asked yet -/
theorem Deep.blank (h : Made K (positions ws) [0] M) (hK : 2 ≤ K) : Deep K a ws (Book.blank M) where
  made := h
  first := rfl
  deep q hq _ := by
    obtain rfl : q = Page.first := by simpa [Book.blank] using hq
    exact ⟨(Made.zero_taken hK).symm, .inl rfl⟩

theorem book_append (K : Nat) (a : Ppm.Alphabet) (b : Book) (rs rs' : List Request) :
    b.serveAll K a (rs ++ rs') = (b.serveAll K a rs).serveAll K a rs' := by
  simp [Book.serveAll]

/-- **C112** A server with a PPM model that is taught a text by update requests, each line with its end and from the beginning and as often
as given at once, before anything else is asked, answers every text with the probabilities of a model trained on the text with the lines that often, after the longest of its
contexts; if the model was trained on a text to begin with, on both. -/
theorem C112_server_counts {models : List (Component Arith.xr)} (hl : Learner o K M0 m0) (hms : models.head? = some (.ppm m0))
    (hs : ∀ m ∈ models, Served encode m) {ws : List (List Int)} {text : List (List Int × Nat)} (hn : ∀ p ∈ text, 0 < p.2)
    (h0 : (ws = [] ∧ M0 = Memory.blank) ∨ (ws ≠ [] ∧ (∀ w ∈ ws, (0 : Int) ∉ w) ∧ M0 = Memory.ofText K ws))
    (hne : ws ≠ [] ∨ text ≠ []) (hsp : Spelt m0.symbols encode (text.map Prod.fst)) :
    ∃ bound, ∀ fuel, bound ≤ fuel → ∀ orderN orderV, (env Arith.xr encode fuel orderN orderV).Fair →
      ∀ (cfg : HubConfig XR) asks h, (cfg.mixture = .interpolation → cfg.weights.length < 2) → (∀ r ∈ asks, Asks r) →
        Server.Reach (env Arith.xr encode fuel orderN orderV) models cfg (teachingN text ++ asks) h →
        ∀ past rep h', Printed past → Typed asks →
          (directory (teachingN text ++ asks ++ [.getLMScores past 0])).length ≤ cfgMax (A := Arith.xr) cfg →
          getLMScores (env Arith.xr encode fuel orderN orderV) h past 0 = .ok (rep, h') →
          ∃ r, rep = .ok r ∧ Tells o m0.symbols m0.chars (Memory.ofText K (ws ++ labelsOf m0.symbols encode (copied text)))
            ((Memory.ofText K (ws ++ labelsOf m0.symbols encode (copied text))).longest ((Ppm.alphabet m0.symbols encode).past past)) r := by
  obtain ⟨bound, hb⟩ := C80_replies hl hms hs
  refine ⟨bound, fun fuel hfu orderN orderV hf cfg asks h hcfg hask hr past rep h' hpast hty hroom he => ?_⟩
  have hmade : Made K (positions ws) [0] M0 := by
    rcases h0 with ⟨rfl, rfl⟩ | ⟨h1, h2, rfl⟩
    · exact Made.blank hl.two
    · exact Ppm.made_ofText hl.two h1 h2
  have hcop : text ≠ [] → copied text ≠ [] := fun h1 h3 => by
    obtain ⟨p, hp⟩ := List.exists_mem_of_ne_nil text h1
    have : p.1 ∈ copied text := List.mem_flatMap.2 ⟨p, hp, List.mem_replicate.2 ⟨by have := hn p hp; omega, rfl⟩⟩
    rw [h3] at this
    cases this
  have hd := Deep.teaching (encode := encode) (t := m0.symbols) hl.two text (Deep.blank (a := Ppm.alphabet m0.symbols encode) hmade hl.two) hsp hn
  have hM := hd.made.ofText hl.two (by
    rcases hne with h1 | h1
    · simp [h1]
    · simpa [labelsOf] using fun _ => hcop h1)
  have hg : ((Book.blank M0).serveAll K (Ppm.alphabet m0.symbols encode) (teachingN text)).memory.Grounded K m0.chars := by
    obtain ⟨ctxs, hk⟩ := hl.keeps (encode := encode)
    obtain ⟨_, _, _, _, hk'⟩ := hk.uses hl.alpha hl.beta hl.initial hl.adaptive (lessonsN text)
    have := hk'.grounded
    rw [hM, ← (Ppm.made_usesN (V := m0.chars) hl.two hsp hmade).ofText hl.two (by
      rcases hne with h1 | h1
      · simp [h1]
      · simpa [labelsOf] using fun _ => hcop h1)]
    exact this
  have htyped : ∀ c, (Ppm.alphabet m0.symbols encode).typed c ≠ 0 := fun c => Ppm.typedLabel_ne _ _ _
  obtain ⟨f1, f2⟩ := Fresh.asks htyped asks (hd.fresh hl.two) hg hask
  rw [← book_append] at f1 f2
  generalize hbk : (Book.blank M0).serveAll K (Ppm.alphabet m0.symbols encode) (teachingN text ++ asks) = bk at f1 f2
  rw [hM] at f2
  have hg' : bk.memory.Grounded K m0.chars := by rw [f2, ← hM]; exact hg
  have hty' : Typed (teachingN text ++ asks ++ [.getLMScores past 0]) := by
    intro r hr c hc
    rcases List.mem_append.1 hr with h1 | h1
    · rcases List.mem_append.1 h1 with h2 | h2
      · obtain ⟨l, h3, rfl⟩ := List.mem_map.1 h2
        rcases List.mem_append.1 hc with h4 | h4
        · exact (hsp l.1 (List.mem_map.2 ⟨l, h3, rfl⟩) c h4).1.le
        · rw [List.mem_singleton.1 h4]
      · exact hty r h2 c hc
    · rw [List.mem_singleton.1 h1] at hc
      exact (hpast c hc).le
  have hsay := (hb fuel hfu orderN orderV hf cfg _ h hcfg hr).1 past 0 rep h' hty' hroom he
  rw [serveAll_one, hbk] at hsay
  have h00 : toInt32 0 = 0 := by decide
  have hpages : 0 < bk.pages.length := by
    rw [← hbk, book_length]
    have := (visitedAll_prefix (teachingN text ++ asks) [[]]).length_le
    unfold directory
    exact Nat.lt_of_lt_of_le (by decide) this
  have hsays : bk.says K (Ppm.alphabet m0.symbols encode) (.getLMScores past 0) = some (bk.read (Ppm.alphabet m0.symbols encode) (bk.page 0) past).2.ctx := by
    simp only [Book.says, h00]
    rw [if_neg]
    rintro ⟨_, h2⟩
    omega
  rw [hsays] at hsay
  obtain ⟨r, k1, k2⟩ := hsay
  refine ⟨r, k1, ?_⟩
  have e1 : (bk.serve K (Ppm.alphabet m0.symbols encode) (.getLMScores past 0)).memory = bk.memory := by
    simp only [Book.serve]; exact read_memory _ _ _ _
  rw [e1, f2] at k2
  have hp0 : (bk.page 0).text = [] := by
    rw [← sourceText_page]
    have e2 : bk.pages.map Page.text = directory (teachingN text ++ asks) := by rw [← hbk]; exact serveAll_texts _ _ _ _
    rw [e2]
    obtain ⟨e, h1⟩ := visitedAll_prefix (teachingN text ++ asks) [[]]
    unfold sourceText directory
    rw [if_neg (by omega), ← h1]
    rfl
  have := (Fresh.read htyped past f1 hg' (f1.page hg' 0)).2
  have etext := (read_texts (Ppm.alphabet m0.symbols encode) past bk (bk.page 0)).2
  rw [hp0, List.nil_append] at etext
  rw [etext, f2] at this
  rw [this hpast] at k2
  exact k2

/-- **C112** A server with a PPM model that is taught a text by update requests, each line once with its end and from the beginning,
before anything else is asked, answers every text with the probabilities of a model trained on the text, after the longest of its
contexts; if the model was trained on a text to begin with, on both. -/
theorem C112_server {models : List (Component Arith.xr)} (hl : Learner o K M0 m0) (hms : models.head? = some (.ppm m0))
    (hs : ∀ m ∈ models, Served encode m) {ws text : List (List Int)}
    (h0 : (ws = [] ∧ M0 = Memory.blank) ∨ (ws ≠ [] ∧ (∀ w ∈ ws, (0 : Int) ∉ w) ∧ M0 = Memory.ofText K ws))
    (hne : ws ≠ [] ∨ text ≠ []) (hsp : Spelt m0.symbols encode text) :
    ∃ bound, ∀ fuel, bound ≤ fuel → ∀ orderN orderV, (env Arith.xr encode fuel orderN orderV).Fair →
      ∀ (cfg : HubConfig XR) asks h, (cfg.mixture = .interpolation → cfg.weights.length < 2) → (∀ r ∈ asks, Asks r) →
        Server.Reach (env Arith.xr encode fuel orderN orderV) models cfg (teaching text ++ asks) h →
        ∀ past rep h', Printed past → Typed asks →
          (directory (teaching text ++ asks ++ [.getLMScores past 0])).length ≤ cfgMax (A := Arith.xr) cfg →
          getLMScores (env Arith.xr encode fuel orderN orderV) h past 0 = .ok (rep, h') →
          ∃ r, rep = .ok r ∧ Tells o m0.symbols m0.chars (Memory.ofText K (ws ++ labelsOf m0.symbols encode text))
            ((Memory.ofText K (ws ++ labelsOf m0.symbols encode text)).longest ((Ppm.alphabet m0.symbols encode).past past)) r := by
  have e1 : teaching text = teachingN (text.map fun l => (l, 1)) := by
    simp only [teaching, teachingN, List.map_map]
    rfl
  have e2 : copied (text.map fun l => (l, 1)) = text := by
    simp [copied, List.flatMap_map]
  have := C112_server_counts (encode := encode) hl hms hs (ws := ws) (text := text.map fun l => (l, 1)) (by simp) h0 (by simpa using hne)
    (by simpa [Function.comp_def] using hsp)
  rw [e2, ← e1] at this
  exact this

/-- what a reply tells is determined by the memory -/
theorem Tells.unique {symbols : SymbolTable} {V : Nat} {c : List Int} {r r' : LMScores XR} (h : Tells o symbols V M c r) (h' : Tells o symbols V M c r') :
    r = r' := by
  obtain ⟨p, h1, _, s1, s2, N, s3, _, s4⟩ := h
  obtain ⟨q, k1, _, t1, t2, N', t3, _, t4⟩ := h'
  obtain rfl := s4.unique t4
  cases r
  cases r'
  simp only at s1 s2 s3 t1 t2 t3
  subst s1 s3 t1 t3
  rw [s2, t2]
  congr 1
  refine List.map_congr_left fun y hy => ?_
  rw [List.mem_range] at hy
  rw [(h1 y (by omega)).2.unique (k1 y (by omega)).2]

/-- **C112** The server whose model is trained from a file, and the server whose model has the file as its vocabulary and is taught its
lines by update requests, reply alike to every request for the scores of a text. -/
theorem C112_servers {counter : Nat → List (List Int) → Fst XR} (hc : Ppm.CounterOk counter) (ha : o.alpha ≠ .nan) (hb : o.beta ≠ .nan)
    (hs : o.static = false) (horder : (K : Int) = if o.maxOrder > 0 then o.maxOrder else 4) (h2 : 2 ≤ K)
    {text : List (List Int)} (hne : text ≠ []) (hl : ∀ l ∈ text, l ≠ []) (hpos : ∀ l ∈ text, Printed l)
    (heps : ∀ l ∈ text, ∀ c ∈ l, encode c ≠ Ppm.epsilonName) :
    ∃ m1 m2 : Ppm.Model Arith.xr,
      Ppm.readText counter o (some (text.map fun l => l.map encode)) none = pure m1 ∧
      Ppm.read Arith.xr o .none (some (some (text.map fun l => l.map encode))) = pure m2 ∧
      ∃ bound, ∀ fuel, bound ≤ fuel → ∀ orderN orderV, (env Arith.xr encode fuel orderN orderV).Fair →
        ∀ (cfg : HubConfig XR) asks1 asks2 h1 h2, (cfg.mixture = .interpolation → cfg.weights.length < 2) →
          (∀ r ∈ asks1, Asks r) → (∀ r ∈ asks2, Asks r) → Typed asks1 → Typed asks2 →
          Server.Reach (env Arith.xr encode fuel orderN orderV) [.ppm m1] cfg asks1 h1 →
          Server.Reach (env Arith.xr encode fuel orderN orderV) [.ppm m2] cfg (teaching text ++ asks2) h2 →
          ∀ past rep1 rep2 h1' h2', Printed past →
            (directory (asks1 ++ [.getLMScores past 0])).length ≤ cfgMax (A := Arith.xr) cfg →
            (directory (teaching text ++ asks2 ++ [.getLMScores past 0])).length ≤ cfgMax (A := Arith.xr) cfg →
            getLMScores (env Arith.xr encode fuel orderN orderV) h1 past 0 = .ok (rep1, h1') →
            getLMScores (env Arith.xr encode fuel orderN orderV) h2 past 0 = .ok (rep2, h2') →
            ∃ r, rep1 = .ok r ∧ rep2 = .ok r := by
  obtain ⟨m1, m2, e1, e2, hsym, hlab, hrange, L1, L2, hsp⟩ := Ppm.same_file (encode := encode) hc ha hb hs horder h2 hne hl hpos heps
  have hch : m2.chars = m1.chars := by unfold Ppm.Model.chars; rw [hsym]
  have served : ∀ {M : Memory} {m : Ppm.Model Arith.xr}, Learner o K M m → ∀ x ∈ [(.ppm m : Component Arith.xr)], Served encode x := by
    intro M m h x hx
    rw [List.mem_singleton.1 hx]
    exact .ppm (Ok := Ppm.OkR) (Ppm.laws_of o h.alpha h.beta) h.initial
  have hlne : labelsOf m1.symbols encode text ≠ [] := by simpa [labelsOf] using hne
  obtain ⟨b1, k1⟩ := C112_server (encode := encode) (text := []) L1 (models := [.ppm m1]) rfl (served L1) (.inr ⟨hlne, hrange, rfl⟩) (.inl hlne)
    (fun l h => absurd h (by simp))
  obtain ⟨b2, k2⟩ := C112_server (encode := encode) (text := text) L2 (models := [.ppm m2]) rfl (served L2) (.inl ⟨rfl, rfl⟩) (.inr hne) hsp
  refine ⟨m1, m2, e1, e2, max b1 b2, fun fuel hfu orderN orderV hf cfg asks1 asks2 h1 h2 hcfg q1 q2 t1 t2 r1 r2 past rep1 rep2 h1' h2' hp d1 d2 g1 g2 => ?_⟩
  obtain ⟨x, x1, x2⟩ := k1 fuel (by omega) orderN orderV hf cfg asks1 h1 hcfg q1 r1 past rep1 h1' hp t1 d1 g1
  obtain ⟨y, y1, y2⟩ := k2 fuel (by omega) orderN orderV hf cfg asks2 h2 hcfg q2 r2 past rep2 h2' hp t2 d2 g2
  rw [hsym, hch, List.nil_append] at y2
  rw [show labelsOf m1.symbols encode ([] : List (List Int)) = [] from rfl, List.append_nil] at x2
  refine ⟨x, x1, ?_⟩
  rw [y1, x2.unique y2]

end Mozolm.System
