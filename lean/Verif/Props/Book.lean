import Verif.System.Book
import Verif.Props.SystemMemory
import Verif.Props.Directory

/-!
# C80: a server with a PPM component that learns is a book

The book is in `System/BookSpec.lean`.
-/

namespace Mozolm.System
open Mozolm.Hub Mozolm.Server
open Mozolm.Ppm (Keeps Memory Learner)
variable {encode : Int → Str} {fuel : Nat} {o : Ppm.Options XR} {K : Nat} {M M0 : Memory} {ctxs : List (List Int)} {m0 : Ppm.Model Arith.xr}
  {orderN : List (Int × Nat) → List (Int × Nat)} {orderV : List (Str × XR) → List (Str × XR)}
  {models : List (Component Arith.xr)} {cfg : HubConfig XR} {reqs : List Request}
  {h h' : Hub Arith.xr (Component Arith.xr)} {j : Nat} {b : Book}

/-- The texts of the pages are the directory of C79. -/
theorem serve_texts (K : Nat) (a : Ppm.Alphabet) (b : Book) (r : Request) : (b.serve K a r).pages.map Page.text = visited (b.pages.map Page.text) r := by
  cases r with
  | getNextState text s =>
    simp only [Book.serve, visited, sourceText_page]; exact (read_texts _ _ _ _).1
  | getLMScores text s =>
    simp only [Book.serve, visited, sourceText_page]; exact (read_texts _ _ _ _).1
  | updateLMScores s cs n =>
    have h1 := (read_texts a cs b (b.page (toInt32 s))).1
    have hpre := (read_prefix a cs b (b.page (toInt32 s))).length_le
    simp only [Book.serve, visited, sourceText_page]
    rw [← h1, sourceText_page]
    have hlen := congrArg List.length h1
    rw [List.length_map] at hlen
    split
    · simp only [Book.count, List.map_map]
      rw [← (read_texts a cs _ _).1]
      exact List.map_congr_left fun q _ => after_text _ _ _ _ _
    · next hout =>
      have hp1 : (b.read a (b.page (toInt32 s)) cs).1.page (toInt32 s) = Page.first := by
        by_cases h0 : toInt32 s < 0
        · exact page_neg h0
        · exact page_out (by omega)
      have hp0 : b.page (toInt32 s) = Page.first := by
        by_cases h0 : toInt32 s < 0
        · exact page_neg h0
        · exact page_out (by omega)
      rw [hp1, h1, hp0]
      exact (visits_again cs List.prefix_rfl).symm

theorem serveAll_texts (K : Nat) (a : Ppm.Alphabet) (reqs : List Request) : ∀ b : Book,
    (b.serveAll K a reqs).pages.map Page.text = reqs.foldl visited (b.pages.map Page.text) := by
  induction reqs with
  | nil => intro b; rfl
  | cons r rs ih =>
    intro b
    have := ih (b.serve K a r)
    rw [serve_texts] at this
    exact this

theorem book_length (K : Nat) (a : Ppm.Alphabet) (M : Memory) (reqs : List Request) :
    ((Book.blank M).serveAll K a reqs).pages.length = (directory reqs).length := by
  have := congrArg List.length (serveAll_texts K a reqs (Book.blank M))
  rw [List.length_map] at this
  exact this

theorem serveAll_one (K : Nat) (a : Ppm.Alphabet) (b : Book) (reqs : List Request) (r : Request) :
    b.serveAll K a (reqs ++ [r]) = (b.serveAll K a reqs).serve K a r := by
  simp [Book.serveAll]

/-- A history of requests. -/
theorem Booked.serveAll (hf : (env Arith.xr encode fuel orderN orderV).Fair) (hl : Learner o K M0 m0) (reqs : List Request) :
    ∀ {h : Hub Arith.xr (Component Arith.xr)} {b : Book} {ctxs : List (List Int)}, Ready encode fuel orderN orderV K m0 j b.memory ctxs h →
    Booked j ctxs b h → Typed reqs → Server.serveAll (env Arith.xr encode fuel orderN orderV) h reqs = .ok h' →
    (b.serveAll K (Ppm.alphabet m0.symbols encode) reqs).pages.length ≤ h.max →
    ∃ ctxs' : List (List Int), Ready encode fuel orderN orderV K m0 j (b.serveAll K (Ppm.alphabet m0.symbols encode) reqs).memory ctxs' h' ∧
      Booked j ctxs' (b.serveAll K (Ppm.alphabet m0.symbols encode) reqs) h' := by
  induction reqs with
  | nil =>
    intro h b ctxs hr hb _ he _
    cases he
    exact ⟨ctxs, hr, hb⟩
  | cons r rs ih =>
    intro h b ctxs hr hb ht he hroom
    obtain ⟨h1, e1, e2⟩ := bind_ok.1 he
    have hroom' : ((b.serve K (Ppm.alphabet m0.symbols encode) r).serveAll K (Ppm.alphabet m0.symbols encode) rs).pages.length ≤ h.max := hroom
    have hle : (b.serve K (Ppm.alphabet m0.symbols encode) r).pages.length ≤
        ((b.serve K (Ppm.alphabet m0.symbols encode) r).serveAll K (Ppm.alphabet m0.symbols encode) rs).pages.length := by
      have h1 := serveAll_texts K (Ppm.alphabet m0.symbols encode) rs (b.serve K (Ppm.alphabet m0.symbols encode) r)
      have h2 := (visitedAll_prefix rs ((b.serve K (Ppm.alphabet m0.symbols encode) r).pages.map Page.text)).length_le
      rw [← h1, List.length_map, List.length_map] at h2
      exact h2
    obtain ⟨ctxs1, k1, k2, k3⟩ := Booked.serve hf hl.alpha hl.beta hl.initial hl.adaptive hr hb (ht r (by simp)) e1 (by omega)
    exact ih k1 k2 (fun r' h' => ht r' (by simp [h'])) e2 (by rw [k3]; exact hroom')

/-- The server after any history. -/
theorem booked_reach (hf : (env Arith.xr encode fuel orderN orderV).Fair) (hl : Learner o K M0 m0)
    (hlive : ∀ m ∈ models, live encode fuel m) (hj : models[j]? = some (.ppm m0)) (hw : j < (cfgWeights (A := Arith.xr) cfg).length)
    (hr : Server.Reach (env Arith.xr encode fuel orderN orderV) models cfg reqs h) (ht : Typed reqs)
    (hroom : (directory reqs).length ≤ cfgMax (A := Arith.xr) cfg) :
    ∃ ctxs : List (List Int), Ready encode fuel orderN orderV K m0 j ((Book.blank M0).serveAll K (Ppm.alphabet m0.symbols encode) reqs).memory ctxs h ∧
      Booked j ctxs ((Book.blank M0).serveAll K (Ppm.alphabet m0.symbols encode) reqs) h ∧
      h.max = cfgMax (A := Arith.xr) cfg ∧ h.weights = cfgWeights (A := Arith.xr) cfg := by
  have g := hr.good hf
  obtain ⟨h0, e1, e2⟩ := hr
  rw [initialize_eq hf] at e1
  split at e1
  · cases e1
  · simp only [Except.ok.injEq, Option.some.injEq] at e1
    subst e1
    obtain ⟨ctxs0, r0⟩ := ready_initial (orderN := orderN) (orderV := orderV) hl hlive hj hw (cfgHlen (A := Arith.xr) cfg) (cfgMax_ge (A := Arith.xr) cfg)
    have b0 : Booked j ctxs0 (Book.blank M0) (initial (env Arith.xr encode fuel orderN orderV) models (cfgWeights (A := Arith.xr) cfg) (cfgHlen (A := Arith.xr) cfg) (cfgMax (A := Arith.xr) cfg)) := by
      refine ⟨initial_indexed _ _ _ _, fun i p hp => ?_, rfl, rfl⟩
      cases i with
      | zero => cases hp; exact r0.zero
      | succ i => simp [Book.blank] at hp
    obtain ⟨ctxs, k1, k2⟩ := Booked.serveAll hf hl reqs (b := Book.blank M0) r0 b0 ht e2 (by rw [book_length]; exact hroom)
    exact ⟨ctxs, k1, k2, g.const.max, g.const.weights⟩

/-- **C80** Of a server in front of any models, among them a PPM model that learns with a weight: after any history of
requests for whose texts the table has room, that model answers as the memory of the book. -/
theorem C80_memory {models : List (Component Arith.xr)} (hs : ∀ m ∈ models, Served encode m) (hl : Learner o K M0 m0)
    (hj : models[j]? = some (.ppm m0)) :
    ∃ bound, ∀ fuel, bound ≤ fuel → ∀ orderN orderV, (env Arith.xr encode fuel orderN orderV).Fair →
      ∀ (cfg : HubConfig XR) reqs h, j < (cfgWeights (A := Arith.xr) cfg).length →
        Server.Reach (env Arith.xr encode fuel orderN orderV) models cfg reqs h → Typed reqs →
        (directory reqs).length ≤ cfgMax (A := Arith.xr) cfg →
        ∃ m : Ppm.Model Arith.xr, h.models[j]? = some (.ppm m) ∧
          Ppm.Answers o encode m0.symbols m0.chars ((Book.blank M0).serveAll K (Ppm.alphabet m0.symbols encode) reqs).memory m := by
  obtain ⟨bound, hb⟩ := served_live hs
  refine ⟨bound, fun fuel hfu orderN orderV hf cfg reqs h hw hr ht hroom => ?_⟩
  obtain ⟨ctxs, k1, _⟩ := booked_reach hf hl (hb fuel hfu) hj hw hr ht hroom
  obtain ⟨m, k4, k5⟩ := k1.holds
  exact ⟨m, k4, k5.answers hl.alpha hl.beta hl.initial hl.totals⟩

/-- **C80** With the PPM model alone: after any history of requests, and for any request, for whose texts the table has
room, the reply has exactly the probabilities of the context that the book says. -/
theorem C80_replies (hl : Learner o K M0 m0) (hms : models.head? = some (.ppm m0)) (hs : ∀ m ∈ models, Served encode m) :
    ∃ bound, ∀ fuel, bound ≤ fuel → ∀ orderN orderV, (env Arith.xr encode fuel orderN orderV).Fair →
      ∀ (cfg : HubConfig XR) reqs h, (cfg.mixture = .interpolation → cfg.weights.length < 2) →
        Server.Reach (env Arith.xr encode fuel orderN orderV) models cfg reqs h →
        (∀ text x rep h', Typed (reqs ++ [.getLMScores text x]) →
          (directory (reqs ++ [.getLMScores text x])).length ≤ cfgMax (A := Arith.xr) cfg →
          Server.getLMScores (env Arith.xr encode fuel orderN orderV) h text x = .ok (rep, h') →
          Says o m0.symbols m0.chars ((Book.blank M0).serveAll K (Ppm.alphabet m0.symbols encode) (reqs ++ [.getLMScores text x])).memory
            (((Book.blank M0).serveAll K (Ppm.alphabet m0.symbols encode) reqs).says K (Ppm.alphabet m0.symbols encode) (.getLMScores text x)) rep) ∧
        (∀ x cs n rep h', Typed (reqs ++ [.updateLMScores x cs n]) →
          (directory (reqs ++ [.updateLMScores x cs n])).length ≤ cfgMax (A := Arith.xr) cfg →
          Server.updateLMScores (env Arith.xr encode fuel orderN orderV) h x cs n = .ok (rep, h') →
          Says o m0.symbols m0.chars ((Book.blank M0).serveAll K (Ppm.alphabet m0.symbols encode) (reqs ++ [.updateLMScores x cs n])).memory
            (((Book.blank M0).serveAll K (Ppm.alphabet m0.symbols encode) reqs).says K (Ppm.alphabet m0.symbols encode) (.updateLMScores x cs n)) rep) := by
  obtain ⟨bound, hb⟩ := served_live hs
  refine ⟨bound, fun fuel hfu orderN orderV hf cfg reqs h hcfg hr => ?_⟩
  have hw := weights_single hcfg
  have key : ∀ r : Request, Typed (reqs ++ [r]) → (directory (reqs ++ [r])).length ≤ cfgMax (A := Arith.xr) cfg → _ :=
    fun r ht hroom => booked_reach (K := K) (M0 := M0) (o := o) hf hl (hb fuel hfu) (j := 0) (by rw [← hms, List.head?_eq_getElem?]) (by omega) hr
      (fun r' h' => ht r' (by simp [h'])) (by
        rw [directory_snoc] at hroom
        exact Nat.le_trans (visited_prefix _ _).length_le hroom)
  refine ⟨fun text x rep h' ht hroom he => ?_, fun x cs n rep h' ht hroom he => ?_⟩
  · obtain ⟨ctxs, k1, k2, k3, k4⟩ := key _ ht hroom
    have hroom' := hroom
    rw [← book_length K (Ppm.alphabet m0.symbols encode) M0, serveAll_one, ← k3] at hroom'
    obtain ⟨_, _, _, a4⟩ := Booked.ask hf hl.alpha hl.beta hl.initial hl.adaptive k1 k2 (ht (.getLMScores text x) (by simp)) he hroom'
    rw [serveAll_one]
    exact a4 rfl (by rw [k4]; omega) hl.totals
  · obtain ⟨ctxs, k1, k2, k3, k4⟩ := key _ ht hroom
    have hroom' := hroom
    rw [← book_length K (Ppm.alphabet m0.symbols encode) M0, serveAll_one, ← k3] at hroom'
    obtain ⟨_, _, _, _, a4⟩ := Booked.update hf hl.alpha hl.beta hl.initial hl.adaptive k1 k2 (ht (.updateLMScores x cs n) (by simp)) he hroom'
    rw [serveAll_one]
    exact a4 rfl (by rw [k4]; omega) hl.totals

/-- **C80** The number of a page is the state id of its text. -/
theorem C80_ids (hf : (env Arith.xr encode fuel orderN orderV).Fair)
    (hr : Server.Reach (env Arith.xr encode fuel orderN orderV) models cfg reqs h) {text : List Int} {x : Int}
    (ht : Typed (reqs ++ [.getNextState text x])) (hroom : (directory (reqs ++ [.getNextState text x])).length ≤ cfgMax (A := Arith.xr) cfg)
    (hx : text ≠ [] ∨ toInt32 x < (directory reqs).length) (K : Nat) (a : Ppm.Alphabet) (M : Memory) :
    ∃ (k : Nat) (h' : Hub Arith.xr (Component Arith.xr)) (p : Page),
      getNextState (env Arith.xr encode fuel orderN orderV) h text x = .ok (.ok (k : Int), h') ∧
      ((Book.blank M).serveAll K a (reqs ++ [.getNextState text x])).pages[k]? = some p ∧
      p.text = (((Book.blank M).serveAll K a reqs).page (toInt32 x)).text ++ text := by
  obtain ⟨k, h', e1, e2⟩ := C79_directory hf hr ht hroom hx
  have htx : ∀ rs, ((Book.blank M).serveAll K a rs).pages.map Page.text = directory rs := fun rs => serveAll_texts K a rs (Book.blank M)
  rw [← htx, ← htx, sourceText_page, List.getElem?_map] at e2
  obtain ⟨p, p1, p2⟩ := Option.map_eq_some_iff.1 e2
  exact ⟨k, h', p, e1, p1, p2⟩

end Mozolm.System
