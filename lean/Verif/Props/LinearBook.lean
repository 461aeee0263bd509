import Verif.Props.Linear
import Verif.Props.Book
import Verif.System.LinearSpec

/-!
# C87: the book of a PPM server, for concurrent clients
-/

namespace Mozolm.System
open Mozolm.Hub Mozolm.Server
open Mozolm.Ppm (Memory Learner)

variable {encode : Int → Str} {o : Ppm.Options XR} {K : Nat} {M0 : Memory} {m0 : Ppm.Model Arith.xr} {models : List (Component Arith.xr)}

theorem answer_scores {A : Arith} {σ : Type} {env : Env A σ} {h h' : Hub A σ} {r : Request} {rep : Reply (LMScores A.D)}
    (he : answer env h r = .ok (.scores rep, h')) :
    (∃ text x, r = .getLMScores text x ∧ getLMScores env h text x = .ok (rep, h')) ∨
      ∃ s cs n, r = .updateLMScores s cs n ∧ updateLMScores env h s cs n = .ok (rep, h') := by
  cases r with
  | getNextState text x =>
    obtain ⟨⟨k1, h1⟩, e1, e2⟩ := bind_ok.1 he
    cases e2
  | getLMScores text x =>
    obtain ⟨⟨k1, h1⟩, e1, e2⟩ := bind_ok.1 he
    cases e2
    exact .inl ⟨text, x, rfl, e1⟩
  | updateLMScores s cs n =>
    obtain ⟨⟨k1, h1⟩, e1, e2⟩ := bind_ok.1 he
    cases e2
    exact .inr ⟨s, cs, n, rfl, e1⟩

/-- **C87** A server with a PPM model that learns, and any number of clients at once: there is an order of the requests
that agrees with what the clients know such that every answer a client got is the one the book gives when the requests
before it in that order have been served – if the texts asked and counted fit into the table. -/
theorem C87_book (hl : Learner o K M0 m0) (hms : models.head? = some (.ppm m0)) (hs : ∀ m ∈ models, Served encode m) :
    ∃ bound, ∀ fuel, bound ≤ fuel → ∀ orderN orderV, (env Arith.xr encode fuel orderN orderV).Fair →
      ∀ (cfg : HubConfig XR) h0 w, (cfg.mixture = .interpolation → cfg.weights.length < 2) →
        initializeModels (env Arith.xr encode fuel orderN orderV) models cfg = .ok (some h0) →
        WReach (env Arith.xr encode fuel orderN orderV) h0 w →
        Typed (sentRequests w.log) → RoomFor w.log (cfgMax (A := Arith.xr) cfg) →
        ∃ order, Linear w.log order ∧ ∀ p t r q a, order = p ++ (t, r) :: q → .got t a ∈ w.log →
          ((Book.blank M0).serveAll K (Ppm.alphabet m0.symbols encode) (p.map (·.2))).gives o K (Ppm.alphabet m0.symbols encode)
            m0.symbols m0.chars r a := by
  obtain ⟨bound, hb⟩ := C80_replies hl hms hs
  refine ⟨bound, fun fuel hfu orderN orderV hf cfg h0 w hcfg hi hw hty hfit => ?_⟩
  obtain ⟨order, hlin, _, hm⟩ := C87_linear hi hw
  have hroom := hlin.room hfit
  have hty' := hlin.typed hty
  refine ⟨order, hlin, fun p t r q a e hg => ?_⟩
  obtain ⟨h, a1, h', k1, k2, k3⟩ := hm p t r q e
  have ea := k3 _ hg
  subst ea
  have hpre : order.map (·.2) = (p.map (·.2) ++ [r]) ++ q.map (·.2) := by rw [e]; simp
  have hty1 : Typed (p.map (·.2) ++ [r]) := fun r' hr => hty' r' (by rw [hpre]; exact List.mem_append_left _ hr)
  have hroom1 : (directory (p.map (·.2) ++ [r])).length ≤ cfgMax (A := Arith.xr) cfg := by
    refine Nat.le_trans (directory_prefix _ (q.map (·.2))).length_le ?_
    rw [← hpre]; exact hroom
  have hserve : ∀ b : Book, b.serveAll K (Ppm.alphabet m0.symbols encode) (p.map (·.2) ++ [r]) =
      (b.serveAll K (Ppm.alphabet m0.symbols encode) (p.map (·.2))).serve K (Ppm.alphabet m0.symbols encode) r := by
    intro b
    simp only [Book.serveAll, List.foldl_append, List.foldl_cons, List.foldl_nil]
  obtain ⟨g1, g2⟩ := hb fuel hfu orderN orderV hf cfg _ h hcfg k1
  cases a with
  | scores rep =>
    unfold Book.gives
    rw [← hserve]
    rcases answer_scores k2 with ⟨text, x, rfl, e1⟩ | ⟨s, cs, n, rfl, e1⟩
    · exact g1 _ _ _ _ hty1 hroom1 e1
    · exact g2 _ _ _ _ _ hty1 hroom1 e1
  | state rep =>
    obtain ⟨text, x, rfl, e1⟩ := answer_next k2
    refine ⟨text, x, rfl, fun hx => ?_⟩
    have htx := serveAll_texts K (Ppm.alphabet m0.symbols encode) (p.map (·.2)) (Book.blank M0)
    have hlen : ((Book.blank M0).serveAll K (Ppm.alphabet m0.symbols encode) (p.map (·.2))).pages.length = (directory (p.map (·.2))).length := by
      rw [← List.length_map (f := Page.text), htx]; rfl
    obtain ⟨k, h2, pg, f1, f2, f3⟩ := C80_ids hf k1 hty1 hroom1 (hx.imp_right fun h => by rw [← hlen]; exact h) K (Ppm.alphabet m0.symbols encode) M0
    rw [e1] at f1
    cases f1
    refine ⟨k, pg, rfl, ?_, f3⟩
    rw [← hserve]
    exact f2

end Mozolm.System
