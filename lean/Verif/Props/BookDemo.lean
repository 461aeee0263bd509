import Verif.Props.Book
import Verif.Props.SystemMemoryDemo

/-! # C80 at work: the order of asking and teaching matters -/

namespace Mozolm.System
open Mozolm.Hub Mozolm.Server
open Mozolm.Ppm (Memory Learner)
open Mozolm.Ppm.MemoryDemo (options table letters M1 M2)

namespace BookDemo

theorem blank_long (a b : Int) (ha : a ≠ 0) : Memory.blank.longest [a, b] = [] := by
  show Memory.blank.longestUpTo [a, b] 2 = _
  unfold Memory.longestUpTo
  rw [if_neg (by simp [Memory.blank])]
  unfold Memory.longestUpTo
  rw [if_neg (by simp [Memory.blank, ha])]
  rfl

theorem blank_one (a : Int) (ha : a ≠ 0) : Memory.blank.longest [a] = [] := by
  show Memory.blank.longestUpTo [a] 1 = _
  unfold Memory.longestUpTo
  rw [if_neg (by simp [Memory.blank, ha])]
  rfl

theorem M2_zero : M2.longest [0] = [0] := by
  show M2.longestUpTo [0] 1 = _
  unfold Memory.longestUpTo
  rw [if_pos (.inl (.inl (.inr rfl)))]
  rfl

theorem M2_two : M2.known [2] := .inr ⟨by omega, [1], .self, rfl⟩

theorem M2_long {a b : Int} (h : M2.known [a]) : M2.longest [a, b] = [a] :=
  Ppm.MemoryDemo.long (fun h => by simpa using Ppm.MemoryDemo.M2_known h) h

theorem M2_long3 {a b c : Int} (h : M2.known [a]) : M2.longest [a, b, c] = [a] := by
  have := M2_long (b := b) h
  refine Eq.trans ?_ this
  show M2.longestUpTo [a, b, c] 3 = M2.longestUpTo [a, b] 2
  unfold Memory.longestUpTo
  rw [if_neg (fun h => by simpa using Ppm.MemoryDemo.M2_known h)]
  unfold Memory.longestUpTo
  rw [if_neg (fun h => by simpa using Ppm.MemoryDemo.M2_known h), if_neg (fun h => by simpa using Ppm.MemoryDemo.M2_known h)]
  unfold Memory.longestUpTo
  rfl

theorem typed_a : letters.typed 97 = 1 := by decide
theorem typed_b : letters.typed 98 = 2 := by decide

theorem counted_ab : counted 2 letters Memory.blank [0] [97, 98] 1 = M2 := Ppm.MemoryDemo.learnt

/-- the texts that have pages after asking for the scores after `ba` -/
theorem asked : ((Book.blank Memory.blank).serveAll 2 letters [.getLMScores [98, 97] 0]) =
    ⟨Memory.blank, [⟨[], [0]⟩, ⟨[98], []⟩, ⟨[98, 97], []⟩]⟩ := by
  simp [Book.serveAll, Book.serve, Book.blank, Book.read, Book.turn, Book.page, Page.first, toInt32, typed_a, typed_b, blank_long, blank_one]

/-- asked, then taught -/
theorem asked_taught : ((Book.blank Memory.blank).serveAll 2 letters [.getLMScores [98, 97] 0, .updateLMScores 0 [97, 98] 1]) =
    ⟨M2, [⟨[], [0]⟩, ⟨[98], []⟩, ⟨[98, 97], []⟩, ⟨[97], [1]⟩, ⟨[97, 98], [2]⟩]⟩ := by
  have h := serveAll_one 2 letters (Book.blank Memory.blank) [.getLMScores [98, 97] 0] (.updateLMScores 0 [97, 98] 1)
  rw [asked] at h
  refine h.trans ?_
  simp [Book.serve, Book.read, Book.turn, Book.page, Book.count, Page.after, Page.first, toInt32, typed_a, typed_b, blank_long,
    blank_one, counted_ab, onto, M2_zero, M2_long3 M2_two, M2_long (.inl Ppm.MemoryDemo.M1_one)]

/-- only taught -/
theorem taught : ((Book.blank Memory.blank).serveAll 2 letters [.updateLMScores 0 [97, 98] 1]) =
    ⟨M2, [⟨[], [0]⟩, ⟨[97], [1]⟩, ⟨[97, 98], [2]⟩]⟩ := by
  simp [Book.serveAll, Book.blank, Book.serve, Book.read, Book.turn, Book.page, Book.count, Page.after, Page.first, toInt32, typed_a, typed_b,
    blank_long, blank_one, counted_ab, onto, M2_zero, M2_long3 M2_two, M2_long (.inl Ppm.MemoryDemo.M1_one)]

/-- in the first history `ba` keeps the context it was found in first -/
theorem says_asked : ((Book.blank Memory.blank).serveAll 2 letters [.getLMScores [98, 97] 0, .updateLMScores 0 [97, 98] 1]).says 2 letters
    (.getLMScores [98, 97] 0) = some [] := by
  rw [asked_taught]
  simp [Book.says, Book.read, Book.turn, Book.page, toInt32]

theorem says_taught : ((Book.blank Memory.blank).serveAll 2 letters [.updateLMScores 0 [97, 98] 1]).says 2 letters
    (.getLMScores [98, 97] 0) = some [1] := by
  rw [taught]
  simp [Book.says, Book.read, Book.turn, Book.page, toInt32, typed_a, typed_b, M2_long M2_two, M2_long (.inl Ppm.MemoryDemo.M1_one)]

theorem memory_ask {b : Book} {K : Nat} {a : Ppm.Alphabet} {reqs : List Request} {text : List Int} {s : Int} :
    (b.serveAll K a (reqs ++ [.getLMScores text s])).memory = (b.serveAll K a reqs).memory := by
  rw [serveAll_one]
  exact read_memory _ _ _ _

/-- `b` at the empty context -/
theorem two_fifths : M2.Prob (1/2) (3/4) 2 2 [] (2/5) := by
  obtain ⟨_, _, _, c4, c5, c6⟩ := Ppm.MemoryDemo.M2_counts
  have h := Memory.Prob.nil (M := M2) (alpha := 1/2) (beta := 3/4) (V := 2) (y := 2)
  convert h using 1
  simp only [Finset.sum_range_succ, Finset.sum_range_zero, Nat.cast_zero, Nat.cast_one, Nat.cast_ofNat, c4, c5, c6]
  norm_num

theorem tells_two {m0 : Ppm.Model Arith.xr} (hch : m0.chars = 2) {c : List Int} {r : LMScores XR} {q : ℝ}
    (ht : Tells options m0.symbols m0.chars M2 c r) (hq : M2.Prob (1/2) (3/4) 2 2 c q) : r.probs[2]? = some (.fin q) := by
  obtain ⟨p, hp, _, _, l4, _⟩ := ht
  rw [hch] at hp l4
  have hp2 := (hp 2 (by omega)).2
  rw [show Ppm.effective options.alpha (1/2) = 1/2 from if_pos (by norm_num),
      show Ppm.effective options.beta (3/4) = 3/4 from if_pos (by norm_num)] at hp2
  rw [l4]
  show some (XR.fin (p 2)) = _
  rw [hp2.unique hq]

end BookDemo
open BookDemo

/-- **C80** "Asking leaves no trace" is false of the server (while it is true of the model: C76): two histories that
differ only in that `ba` was asked for before `ab` was taught, and the replies to asking for the scores after `ba`
afterwards: `b` has two fifths or one half. -/
theorem C80_asking_false : ∃ (m0 : Ppm.Model Arith.xr) (fuel : Nat) (h h' k k' : Hub Arith.xr (Component Arith.xr)) (r r' : LMScores XR),
    Ppm.read Arith.xr options .none (some (some Ppm.Demo.vocab)) = pure m0 ∧
    Server.Reach (env Arith.xr Ppm.Demo.enc fuel id id) [.ppm m0] demoConfig [.getLMScores [98, 97] 0, .updateLMScores 0 [97, 98] 1] h ∧
    Server.Reach (env Arith.xr Ppm.Demo.enc fuel id id) [.ppm m0] demoConfig [.updateLMScores 0 [97, 98] 1] k ∧
    getLMScores (env Arith.xr Ppm.Demo.enc fuel id id) h [98, 97] 0 = .ok (.ok r, h') ∧
    getLMScores (env Arith.xr Ppm.Demo.enc fuel id id) k [98, 97] 0 = .ok (.ok r', k') ∧
    r.symbols = [[], [97], [98]] ∧ r'.symbols = [[], [97], [98]] ∧
    r.probs[2]? = some (.fin (2/5)) ∧ r'.probs[2]? = some (.fin (1/2)) := by
  obtain ⟨m0, hread, hl, hsym, hch⟩ := demo_learner
  have hs : ∀ m ∈ [(.ppm m0 : Component Arith.xr)], Served Ppm.Demo.enc m := by
    intro m hm
    rw [List.mem_singleton.1 hm]; exact Learner.served hl
  obtain ⟨b1, hb1⟩ := C72_service hs (by simp)
  obtain ⟨b2, hb2⟩ := C72_update_service hs (by simp)
  obtain ⟨b3, hb3⟩ := C80_replies hl (models := [.ppm m0]) rfl hs
  have hf : (env Arith.xr Ppm.Demo.enc (max b1 (max b2 b3)) id id).Fair := ⟨fun _ => .refl _, fun _ => .refl _⟩
  generalize hfu : max b1 (max b2 b3) = fuel at hf
  obtain ⟨h0, hr0⟩ : ∃ h0, initializeModels (env Arith.xr Ppm.Demo.enc fuel id id) [.ppm m0] demoConfig = .ok (some h0) :=
    ⟨_, by rw [initialize_eq hf, if_neg (by simp [demoConfig])]⟩
  have hreach : Server.Reach (env Arith.xr Ppm.Demo.enc fuel id id) [.ppm m0] demoConfig [] h0 := ⟨h0, hr0, rfl⟩
  -- asked
  obtain ⟨rep1, h1, e1, _⟩ := (hb1 fuel (by omega) _ _ hf demoConfig [] h0 (by simp [demoConfig]) hreach).2 [98, 97] 0
  have hreach1 := hreach.snoc (r := .getLMScores [98, 97] 0) (h' := h1) (by simp only [Server.serve, e1, ok_bind])
  -- taught
  have teach : ∀ {reqs h}, Server.Reach (env Arith.xr Ppm.Demo.enc fuel id id) [.ppm m0] demoConfig reqs h →
      ∃ h', Server.Reach (env Arith.xr Ppm.Demo.enc fuel id id) [.ppm m0] demoConfig (reqs ++ [.updateLMScores 0 [97, 98] 1]) h' := by
    intro reqs h hr
    have hpos := (hr.good hf).inv.pos
    obtain ⟨rep, h', e, _⟩ := hb2 fuel (by omega) _ _ hf demoConfig reqs h (by simp [demoConfig]) hr 0 (by decide) (by decide) (by omega)
      [97, 98] (by decide) 1
    exact ⟨h', hr.snoc (by simp only [Server.serve, e, ok_bind])⟩
  have last : ∀ {reqs h} {c : List Int} {q : ℝ}, Server.Reach (env Arith.xr Ppm.Demo.enc fuel id id) [.ppm m0] demoConfig reqs h →
      Typed (reqs ++ [.getLMScores [98, 97] 0]) → (directory (reqs ++ [.getLMScores [98, 97] 0])).length ≤ cfgMax (A := Arith.xr) demoConfig →
      ((Book.blank Memory.blank).serveAll 2 letters reqs).memory = M2 →
      ((Book.blank Memory.blank).serveAll 2 letters reqs).says 2 letters (.getLMScores [98, 97] 0) = some c →
      M2.Prob (1/2) (3/4) 2 2 c q →
      ∃ (r : LMScores XR) (h' : Hub Arith.xr (Component Arith.xr)), getLMScores (env Arith.xr Ppm.Demo.enc fuel id id) h [98, 97] 0 = .ok (.ok r, h') ∧
        r.symbols = [[], [97], [98]] ∧ r.probs[2]? = some (.fin q) := by
    intro reqs h c q hr ht hroom hM hc hq
    obtain ⟨rep, h', e, _⟩ := (hb1 fuel (by omega) _ _ hf demoConfig reqs h (by simp [demoConfig]) hr).2 [98, 97] 0
    have hsay := (hb3 fuel (by omega) _ _ hf demoConfig reqs h (by simp [demoConfig]) hr).1 [98, 97] 0 rep h' ht hroom e
    have hal : Ppm.alphabet m0.symbols Ppm.Demo.enc = letters := by rw [hsym]; rfl
    rw [memory_ask, hal, hM, hc] at hsay
    obtain ⟨r, rfl, ht⟩ := hsay
    refine ⟨r, h', e, ?_, tells_two hch ht hq⟩
    obtain ⟨_, _, _, l3, _⟩ := ht
    rw [l3, hsym]; rfl
  obtain ⟨h2, hreach2⟩ := teach hreach1
  obtain ⟨k2, hreach3⟩ := teach hreach
  obtain ⟨r, h', x1, x2, x3⟩ := last hreach2 (by unfold Typed; decide) (by decide) (by rw [show ([] ++ [Request.getLMScores [98, 97] 0] ++
    [.updateLMScores 0 [97, 98] 1]) = [.getLMScores [98, 97] 0, .updateLMScores 0 [97, 98] 1] from rfl, asked_taught]) says_asked two_fifths
  obtain ⟨r', k', y1, y2, y3⟩ := last hreach3 (by unfold Typed; decide) (by decide) (by rw [show ([] ++ [Request.updateLMScores 0 [97, 98] 1]) =
    [.updateLMScores 0 [97, 98] 1] from rfl, taught]) says_taught Ppm.MemoryDemo.half
  exact ⟨m0, fuel, h2, h', k2, k', r, r', hread, hreach2, hreach3, x1, y1, x2, y2, x3, y3⟩

end Mozolm.System
