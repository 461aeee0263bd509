import Verif.Server.LifecycleInv

/-! # Every step of the RPC life cycle keeps the invariant -/

namespace Mozolm.Server

private theorem cnt_cons_ne {a b : Act} (h : b ≠ a) (A : List Act) : (b :: A).count a = A.count a := by
  rw [List.count_cons, if_neg (by simpa using h)]; rfl

/-- `arm`: a new call object. -/
theorem Core.armStep {s : Sys} {k : Kind} {A : List Act} (h : Core s (.arm k :: A)) :
    Core { s with calls := s.calls ++ [⟨s.next, k, .armed⟩], next := s.next + 1 } A := by
  have hlive : ∀ i, Live (s.calls ++ [⟨s.next, k, .armed⟩]) i ↔ Live s.calls i ∨ i = s.next := by
    intro i; simp only [live_iff, List.map_append, List.mem_append, List.map_cons, List.map_nil,
      List.mem_singleton]
  have hat : ∀ i p, At (s.calls ++ [⟨s.next, k, .armed⟩]) i p ↔
      At s.calls i p ∨ (i = s.next ∧ p = .armed) := by
    intro i p
    simp only [At, List.mem_append, List.mem_singleton]
    constructor
    · rintro ⟨c, h1 | rfl, h2, h3⟩
      · exact .inl ⟨c, h1, h2, h3⟩
      · exact .inr ⟨h2.symm, h3.symm⟩
    · rintro (⟨c, h1, h2, h3⟩ | ⟨rfl, rfl⟩)
      · exact ⟨c, .inl h1, h2, h3⟩
      · exact ⟨_, .inr rfl, rfl, rfl⟩
  have hat' : ∀ i p, p ≠ .armed → (At (s.calls ++ [⟨s.next, k, .armed⟩]) i p ↔ At s.calls i p) := by
    intro i p hp; rw [hat]; simp [hp]
  have hnew : ¬ Live s.calls s.next := fun hl => Nat.lt_irrefl _ (h.lt _ hl)
  refine ⟨?_, ?_, ?_, ?_, ?_, ?_, ?_, ?_, ?_, ?_, ?_, ?_, ?_, ?_⟩
  · simp only [List.map_append, List.map_cons, List.map_nil]
    rw [List.nodup_append]
    refine ⟨h.nodup, by simp, ?_⟩
    intro a ha b hb e
    simp only [List.mem_singleton] at hb
    subst hb; subst e
    exact hnew (live_iff.2 ha)
  · intro i hi
    rcases (hlive i).1 hi with hi | rfl
    · exact Nat.lt_succ_of_lt (h.lt i hi)
    · exact Nat.lt_succ_self _
  · exact h.freedNodup
  · intro i hi
    obtain ⟨a, b⟩ := h.freedLt i hi
    refine ⟨Nat.lt_succ_of_lt a, ?_⟩
    intro hl
    rcases (hlive i).1 hl with hl | rfl
    · exact b hl
    · exact Nat.lt_irrefl _ a
  · intro i hi
    simp only at hi ⊢
    rw [hlive]
    by_cases e : i = s.next
    · exact .inr (.inr e)
    · rcases h.all i (by omega) with a | a
      · exact .inl a
      · exact .inr (.inl a)
  · intro i
    rw [hat' i _ (by decide)]
    have := h.cf i
    rwa [cnt_cons_ne (by simp)] at this
  · intro i
    rw [hat' i _ (by decide)]
    have := h.ch i
    rwa [cnt_cons_ne (by simp)] at this
  · have := h.pend
    rw [cnt_cons_ne (by simp)] at this
    simp only [List.countP_cons, isArm, isFree, if_true] at this
    simp only [List.length_append, List.length_singleton]
    simp at this
    omega
  · exact h.repNodup
  · intro i hi
    obtain ⟨a, b⟩ := h.rep i hi
    refine ⟨a, ?_⟩
    simp only
    rw [hat' i _ (by decide), hat' i _ (by decide), hat' i _ (by decide)]
    exact b
  · exact h.accNodup
  · intro i hi
    obtain ⟨a, b⟩ := h.acc i hi
    refine ⟨Nat.lt_succ_of_lt a, ?_⟩
    simp only
    rw [hat' i _ (by decide)]
    exact b
  · intro i hi
    simp only at hi ⊢
    rw [hat i, hat' i _ (by decide), hat' i _ (by decide)] at hi
    intro hacc
    have hlt := (h.acc i hacc).1
    rcases hi with (hi | ⟨rfl, _⟩) | hi | hi
    · exact h.early i (.inl hi) hacc
    · exact Nat.lt_irrefl _ hlt
    · exact h.early i (.inr (.inl hi)) hacc
    · exact h.early i (.inr (.inr hi)) hacc
  · intro i hi
    exact h.prc i ((hat' i _ (by decide)).1 hi)

/-- `incr` succeeding: one more pending, and a call to request. -/
theorem Core.incrStep {s : Sys} {k : Kind} {A : List Act} (h : Core s (.incr k :: A)) :
    Core { s with pending := s.pending + 1 } (.arm k :: A) := by
  refine { h with cf := ?_, ch := ?_, pend := ?_ }
  · intro i
    have := h.cf i
    rw [cnt_cons_ne (by simp)] at this ⊢
    exact this
  · intro i
    have := h.ch i
    rw [cnt_cons_ne (by simp)] at this ⊢
    exact this
  · have := h.pend
    rw [cnt_cons_ne (by simp)] at this ⊢
    simp [List.countP_cons, isArm, isFree] at this ⊢
    omega

/-- `decr` -/
theorem Core.decrStep {s : Sys} {b : Bool} {A : List Act} (h : Core s (.decr :: A)) :
    Core { s with pending := s.pending - 1, notified := b } A := by
  refine { h with cf := ?_, ch := ?_, pend := ?_ }
  · intro i
    have := h.cf i
    rw [cnt_cons_ne (by simp)] at this
    exact this
  · intro i
    have := h.ch i
    rw [cnt_cons_ne (by simp)] at this
    exact this
  · have := h.pend
    simp [isArm, isFree] at this ⊢
    omega

/-- `free` -/
theorem Core.freeStep {s : Sys} {id : Nat} {A : List Act} (h : Core s (.free id :: A)) :
    Core { s with calls := removeCall s.calls id, freed := id :: s.freed } A := by
  have hcf := h.cf id
  rw [List.count_cons_self] at hcf
  obtain ⟨hc0, hcl⟩ : A.count (.free id) = 0 ∧ At s.calls id .closing := by
    rcases hcf with ⟨a, b⟩ | ⟨a, _⟩
    · exact ⟨by omega, b⟩
    · omega
  have hu := fun (x : Phase) (hx : At s.calls id x) => at_unique h.nodup hx hcl
  have hiff : ∀ i x, x ≠ .closing → (At (removeCall s.calls id) i x ↔ At s.calls i x) := by
    intro i x hx
    rw [removeCall_at]
    refine ⟨fun a => a.2, fun a => ⟨?_, a⟩⟩
    rintro rfl
    exact hx (hu x a)
  refine ⟨?_, ?_, ?_, ?_, ?_, ?_, ?_, ?_, ?_, ?_, ?_, ?_, ?_, ?_⟩
  · exact removeCall_nodup h.nodup id
  · intro i hi; exact h.lt i (removeCall_live.1 hi).2
  · simp only [List.nodup_cons]
    exact ⟨fun hf => (h.freedLt id hf).2 hcl.live, h.freedNodup⟩
  · intro i hi
    simp only [List.mem_cons] at hi
    rcases hi with rfl | hi
    · exact ⟨h.lt _ hcl.live, fun hl => (removeCall_live.1 hl).1 rfl⟩
    · exact ⟨(h.freedLt i hi).1, fun hl => (h.freedLt i hi).2 (removeCall_live.1 hl).2⟩
  · intro i hi
    simp only [List.mem_cons]
    rw [removeCall_live]
    by_cases e : i = id
    · exact .inl (.inl e)
    · rcases h.all i hi with a | a
      · exact .inl (.inr a)
      · exact .inr ⟨e, a⟩
  · intro i
    simp only
    rw [removeCall_at]
    by_cases e : i = id
    · subst e; exact .inr ⟨hc0, fun x => x.1 rfl⟩
    · have := h.cf i
      rw [cnt_cons_ne (by simpa using fun x => e x.symm)] at this
      rcases this with ⟨a, b⟩ | ⟨a, b⟩
      · exact .inl ⟨a, e, b⟩
      · exact .inr ⟨a, fun x => b x.2⟩
  · intro i
    simp only
    rw [hiff i _ (by decide)]
    have := h.ch i
    rwa [cnt_cons_ne (by simp)] at this
  · have h1 := h.pend
    have h2 := removeCall_length h.nodup hcl.live
    rw [cnt_cons_ne (by simp)] at h1
    simp [List.countP_cons, isArm, isFree] at h1 ⊢
    omega
  · exact h.repNodup
  · intro i hi
    obtain ⟨a, b⟩ := h.rep i hi
    refine ⟨a, ?_⟩
    simp only [List.mem_cons]
    rw [hiff i _ (by decide), hiff i _ (by decide), removeCall_at]
    by_cases e : i = id
    · exact .inl (.inl e)
    · rcases b with b | b | b | b
      · exact .inl (.inr b)
      · exact .inr (.inl b)
      · exact .inr (.inr (.inl b))
      · exact .inr (.inr (.inr ⟨e, b⟩))
  · exact h.accNodup
  · intro i hi
    obtain ⟨a, b⟩ := h.acc i hi
    refine ⟨a, ?_⟩
    simp only
    rw [hiff i _ (by decide)]
    exact b
  · intro i hi
    simp only at hi
    rw [hiff i _ (by decide), hiff i _ (by decide), hiff i _ (by decide)] at hi
    exact h.early i hi
  · intro i hi
    exact h.prc i ((hiff i _ (by decide)).1 hi)

/-- `handle` -/
theorem Core.handleStep {s : Sys} {id : Nat} {A : List Act} (h : Core s (.handle id :: A)) :
    Core { s with calls := setPhase s.calls id .finishing, replied := id :: s.replied } A := by
  have hch := h.ch id
  rw [List.count_cons_self] at hch
  obtain ⟨hc0, hcl⟩ : A.count (.handle id) = 0 ∧ At s.calls id .processing := by
    rcases hch with ⟨a, b⟩ | ⟨a, _⟩
    · exact ⟨by omega, b⟩
    · omega
  have hu := fun (x : Phase) (hx : At s.calls id x) => at_unique h.nodup hx hcl
  have hiff : ∀ i x, x ≠ .processing → x ≠ .finishing →
      (At (setPhase s.calls id .finishing) i x ↔ At s.calls i x) := by
    intro i x hx hx'
    rw [setPhase_at]
    constructor
    · rintro (⟨_, a, _⟩ | ⟨_, a⟩)
      · exact absurd a hx'
      · exact a
    · intro a
      refine .inr ⟨?_, a⟩
      rintro rfl
      exact hx (hu x a)
  -- an id that is being processed has been accepted: otherwise nothing sets that phase
  have hnr : id ∉ s.replied := by
    intro hr
    rcases (h.rep id hr).2 with a | a | a | a
    · exact (h.freedLt id a).2 hcl.live
    · exact absurd (hu _ a) (by decide)
    · exact absurd (hu _ a) (by decide)
    · exact absurd (hu _ a) (by decide)
  refine ⟨?_, ?_, ?_, ?_, ?_, ?_, ?_, ?_, ?_, ?_, ?_, ?_, ?_, ?_⟩
  · simp only [setPhase_ids]; exact h.nodup
  · intro i hi; exact h.lt i (setPhase_live.1 hi)
  · exact h.freedNodup
  · intro i hi; exact ⟨(h.freedLt i hi).1, fun hl => (h.freedLt i hi).2 (setPhase_live.1 hl)⟩
  · intro i hi
    simp only
    rw [setPhase_live]; exact h.all i hi
  · intro i
    simp only
    rw [hiff i _ (by decide) (by decide)]
    have := h.cf i
    rwa [cnt_cons_ne (by simp)] at this
  · intro i
    simp only
    rw [setPhase_at]
    by_cases e : i = id
    · subst e
      refine .inr ⟨hc0, ?_⟩
      rintro (⟨_, a, _⟩ | ⟨a, _⟩)
      · cases a
      · exact a rfl
    · have := h.ch i
      rw [cnt_cons_ne (by simpa using fun x => e x.symm)] at this
      rcases this with ⟨a, b⟩ | ⟨a, b⟩
      · exact .inl ⟨a, .inr ⟨e, b⟩⟩
      · refine .inr ⟨a, ?_⟩
        rintro (⟨x, _⟩ | ⟨_, x⟩)
        · exact e x
        · exact b x
  · have h1 := h.pend
    rw [cnt_cons_ne (by simp)] at h1
    simp [isArm, isFree, setPhase_length] at h1 ⊢
    omega
  · simp only [List.nodup_cons]; exact ⟨hnr, h.repNodup⟩
  · intro i hi
    simp only [List.mem_cons] at hi ⊢
    rw [hiff i .finished (by decide) (by decide), hiff i .closing (by decide) (by decide), setPhase_at]
    rcases hi with rfl | hi
    · refine ⟨?_, .inr (.inl (.inl ⟨rfl, rfl, hcl.live⟩))⟩
      exact h.prc i hcl
    · obtain ⟨a, b⟩ := h.rep i hi
      refine ⟨a, ?_⟩
      have hne : i ≠ id := fun e => hnr (e ▸ hi)
      rcases b with b | b | b | b
      · exact .inl b
      · exact .inr (.inl (.inr ⟨hne, b⟩))
      · exact .inr (.inr (.inl b))
      · exact .inr (.inr (.inr b))
  · exact h.accNodup
  · intro i hi
    obtain ⟨a, b⟩ := h.acc i hi
    refine ⟨a, ?_⟩
    simp only [List.mem_cons]
    rw [setPhase_at]
    by_cases e : i = id
    · exact .inl (.inl e)
    · rcases b with b | b
      · exact .inl (.inr b)
      · exact .inr (.inr ⟨e, b⟩)
  · intro i hi
    simp only at hi
    rw [hiff i _ (by decide) (by decide), hiff i _ (by decide) (by decide),
      hiff i _ (by decide) (by decide)] at hi
    exact h.early i hi
  · intro i hi
    rcases setPhase_at.1 hi with ⟨_, a, _⟩ | ⟨_, a⟩
    · cases a
    · exact h.prc i a

/-- an event with a request -/
theorem Core.okStep {s : Sys} {c : Call} {A : List Act} (h : Core s (.drive :: A))
    (hm : c ∈ s.calls) (hp : c.phase = .readyOk) :
    Core { s with calls := setPhase s.calls c.id .processing, accepted := c.id :: s.accepted }
      (.incr c.kind :: .handle c.id :: .drive :: A) := by
  have hat : At s.calls c.id .readyOk := ⟨c, hm, rfl, hp⟩
  generalize hid : c.id = id at *
  have hu := fun (x : Phase) (hx : At s.calls id x) => at_unique h.nodup hx hat
  have hiff : ∀ i x, x ≠ .readyOk → x ≠ .processing →
      (At (setPhase s.calls id .processing) i x ↔ At s.calls i x) := by
    intro i x hx hx'
    rw [setPhase_at]
    constructor
    · rintro (⟨_, a, _⟩ | ⟨_, a⟩)
      · exact absurd a hx'
      · exact a
    · intro a
      refine .inr ⟨?_, a⟩
      rintro rfl
      exact hx (hu x a)
  have hna : id ∉ s.accepted := h.early id (.inr (.inl hat))
  refine ⟨?_, ?_, ?_, ?_, ?_, ?_, ?_, ?_, ?_, ?_, ?_, ?_, ?_, ?_⟩
  · simp only [setPhase_ids]; exact h.nodup
  · intro i hi; exact h.lt i (setPhase_live.1 hi)
  · exact h.freedNodup
  · intro i hi; exact ⟨(h.freedLt i hi).1, fun hl => (h.freedLt i hi).2 (setPhase_live.1 hl)⟩
  · intro i hi
    simp only
    rw [setPhase_live]; exact h.all i hi
  · intro i
    simp only
    rw [hiff i _ (by decide) (by decide), cnt_cons_ne (by simp), cnt_cons_ne (by simp)]
    exact h.cf i
  · intro i
    have := h.ch i
    simp only
    rw [setPhase_at, cnt_cons_ne (by simp)]
    by_cases e : i = id
    · subst e
      rw [List.count_cons_self]
      rcases this with ⟨_, b⟩ | ⟨a, b⟩
      · exact absurd (hu _ b) (by decide)
      · exact .inl ⟨by omega, .inl ⟨rfl, rfl, hat.live⟩⟩
    · rw [cnt_cons_ne (by simpa using fun x => e x.symm)]
      rcases this with ⟨a, b⟩ | ⟨a, b⟩
      · exact .inl ⟨a, .inr ⟨e, b⟩⟩
      · refine .inr ⟨a, ?_⟩
        rintro (⟨x, _⟩ | ⟨_, x⟩)
        · exact e x
        · exact b x
  · have h1 := h.pend
    rw [cnt_cons_ne (by simp)] at h1
    rw [cnt_cons_ne (by simp), cnt_cons_ne (by simp), cnt_cons_ne (by simp)]
    simp [isArm, isFree, setPhase_length] at h1 ⊢
    omega
  · exact h.repNodup
  · intro i hi
    simp only [List.mem_cons]
    rw [hiff i .finished (by decide) (by decide), hiff i .closing (by decide) (by decide),
      hiff i .finishing (by decide) (by decide)]
    obtain ⟨a, b⟩ := h.rep i hi
    exact ⟨.inr a, b⟩
  · simp only [List.nodup_cons]; exact ⟨hna, h.accNodup⟩
  · intro i hi
    simp only [List.mem_cons] at hi
    simp only
    rw [setPhase_at]
    rcases hi with rfl | hi
    · exact ⟨h.lt _ hat.live, .inr (.inl ⟨rfl, rfl, hat.live⟩)⟩
    · obtain ⟨a, b⟩ := h.acc i hi
      refine ⟨a, ?_⟩
      have hne : i ≠ id := fun e => hna (e ▸ hi)
      rcases b with b | b
      · exact .inl b
      · exact .inr (.inr ⟨hne, b⟩)
  · intro i hi
    simp only [List.mem_cons, not_or]
    simp only at hi
    rw [hiff i .armed (by decide) (by decide), hiff i .readyFail (by decide) (by decide),
      setPhase_at] at hi
    have hne : i ≠ id := by
      rintro rfl
      rcases hi with hi | (⟨_, a, _⟩ | ⟨a, _⟩) | hi
      · exact absurd (hu _ hi) (by decide)
      · cases a
      · exact a rfl
      · exact absurd (hu _ hi) (by decide)
    refine ⟨hne, h.early i ?_⟩
    rcases hi with hi | (⟨a, _, _⟩ | ⟨_, a⟩) | hi
    · exact .inl hi
    · exact absurd a hne
    · exact .inr (.inl a)
    · exact .inr (.inr hi)
  · intro i hi
    simp only [List.mem_cons]
    rcases setPhase_at.1 hi with ⟨a, _, _⟩ | ⟨_, a⟩
    · exact .inl a
    · exact .inr (h.prc i a)

/-- an event that ends a call -/
theorem Core.closeStep {s : Sys} {c : Call} {A : List Act} (h : Core s (.drive :: A))
    (hm : c ∈ s.calls) (hp : c.phase = .readyFail ∨ c.phase = .finished) :
    Core { s with calls := setPhase s.calls c.id .closing }
      (.free c.id :: .decr :: .drive :: A) := by
  obtain ⟨p, hat, hp⟩ : ∃ p, At s.calls c.id p ∧ (p = .readyFail ∨ p = .finished) :=
    ⟨c.phase, ⟨c, hm, rfl, rfl⟩, hp⟩
  generalize hid : c.id = id at *
  have hu := fun (x : Phase) (hx : At s.calls id x) => at_unique h.nodup hx hat
  have hiff : ∀ i x, x ≠ .readyFail → x ≠ .finished → x ≠ .closing →
      (At (setPhase s.calls id .closing) i x ↔ At s.calls i x) := by
    intro i x hx hx' hx''
    rw [setPhase_at]
    constructor
    · rintro (⟨_, a, _⟩ | ⟨_, a⟩)
      · exact absurd a hx''
      · exact a
    · intro a
      refine .inr ⟨?_, a⟩
      rintro rfl
      rcases hp with rfl | rfl
      · exact hx (hu x a)
      · exact hx' (hu x a)
  refine ⟨?_, ?_, ?_, ?_, ?_, ?_, ?_, ?_, ?_, ?_, ?_, ?_, ?_, ?_⟩
  · simp only [setPhase_ids]; exact h.nodup
  · intro i hi; exact h.lt i (setPhase_live.1 hi)
  · exact h.freedNodup
  · intro i hi; exact ⟨(h.freedLt i hi).1, fun hl => (h.freedLt i hi).2 (setPhase_live.1 hl)⟩
  · intro i hi
    simp only
    rw [setPhase_live]; exact h.all i hi
  · intro i
    have := h.cf i
    rw [cnt_cons_ne (by simp)] at this
    simp only
    rw [setPhase_at]
    by_cases e : i = id
    · subst e
      rw [List.count_cons_self, cnt_cons_ne (by simp), cnt_cons_ne (by simp)]
      rcases this with ⟨_, b⟩ | ⟨a, b⟩
      · rcases hp with rfl | rfl <;> exact absurd (hu _ b) (by decide)
      · exact .inl ⟨by omega, .inl ⟨rfl, rfl, hat.live⟩⟩
    · rw [cnt_cons_ne (by simpa using fun x => e x.symm), cnt_cons_ne (by simp), cnt_cons_ne (by simp)]
      rcases this with ⟨a, b⟩ | ⟨a, b⟩
      · exact .inl ⟨a, .inr ⟨e, b⟩⟩
      · refine .inr ⟨a, ?_⟩
        rintro (⟨x, _⟩ | ⟨_, x⟩)
        · exact e x
        · exact b x
  · intro i
    simp only
    rw [hiff i _ (by decide) (by decide) (by decide), cnt_cons_ne (by simp), cnt_cons_ne (by simp)]
    exact h.ch i
  · have h1 := h.pend
    rw [cnt_cons_ne (by simp)] at h1
    rw [cnt_cons_ne (by simp), List.count_cons_self, cnt_cons_ne (by simp)]
    simp [List.countP_cons, isArm, isFree, setPhase_length] at h1 ⊢
    omega
  · exact h.repNodup
  · intro i hi
    obtain ⟨a, b⟩ := h.rep i hi
    refine ⟨a, ?_⟩
    simp only
    rw [setPhase_at, setPhase_at, setPhase_at]
    by_cases e : i = id
    · subst e
      rcases b with b | b | b | b
      · exact .inl b
      · exact .inr (.inr (.inr (.inl ⟨rfl, rfl, hat.live⟩)))
      · exact .inr (.inr (.inr (.inl ⟨rfl, rfl, hat.live⟩)))
      · exact .inr (.inr (.inr (.inl ⟨rfl, rfl, hat.live⟩)))
    · rcases b with b | b | b | b
      · exact .inl b
      · exact .inr (.inl (.inr ⟨e, b⟩))
      · exact .inr (.inr (.inl (.inr ⟨e, b⟩)))
      · exact .inr (.inr (.inr (.inr ⟨e, b⟩)))
  · exact h.accNodup
  · intro i hi
    simp only
    rw [hiff i _ (by decide) (by decide) (by decide)]
    exact h.acc i hi
  · intro i hi
    simp only at hi
    rw [hiff i .armed (by decide) (by decide) (by decide),
      hiff i .readyOk (by decide) (by decide) (by decide), setPhase_at] at hi
    refine h.early i ?_
    rcases hi with hi | hi | (⟨_, a, _⟩ | ⟨_, a⟩)
    · exact .inl hi
    · exact .inr (.inl hi)
    · cases a
    · exact .inr (.inr a)
  · intro i hi
    exact h.prc i ((hiff i _ (by decide) (by decide) (by decide)).1 hi)

/-! ## the control part -/

/-- what a step never undoes -/
structure Mono (s s' : Sys) : Prop where
  shutdown : s.shutdown = true → s'.shutdown = true
  notified : s.notified = true → s'.notified = true
  serverDown : s.serverDown = true → s'.serverDown = true
  quiet : Quiet s → Quiet s'

theorem Quiet.of_at {s s' : Sys} (h : Quiet s) (hd : s'.serverDown = s.serverDown)
    (h1 : ∀ id, At s'.calls id .readyOk → ∃ i, At s.calls i .readyOk)
    (h2 : ∀ id, At s'.calls id .processing →
      ∃ i, At s.calls i .readyOk ∨ At s.calls i .processing) : Quiet s' := by
  refine ⟨hd.trans h.1, fun id => ⟨fun a => ?_, fun a => ?_⟩⟩
  · obtain ⟨i, b⟩ := h1 id a; exact (h.2 i).1 b
  · obtain ⟨i, b | b⟩ := h2 id a
    · exact (h.2 i).1 b
    · exact (h.2 i).2 b

theorem Quiet.set {s s' : Sys} (h : Quiet s) (hd : s'.serverDown = s.serverDown) {id : Nat}
    {q : Phase} (e : s'.calls = setPhase s.calls id q) (hq : q ≠ .readyOk) (hq' : q ≠ .processing) :
    Quiet s' := by
  refine h.of_at hd ?_ ?_
  · intro i a
    rw [e, setPhase_at] at a
    rcases a with ⟨_, a, _⟩ | ⟨_, a⟩
    · exact absurd a.symm hq
    · exact ⟨i, a⟩
  · intro i a
    rw [e, setPhase_at] at a
    rcases a with ⟨_, a, _⟩ | ⟨_, a⟩
    · exact absurd a.symm hq'
    · exact ⟨i, .inr a⟩

theorem ActStep.mono {s s' : Sys} {acts acts' : List Act} (h : ActStep s acts s' acts') :
    Mono s s' := by
  cases h with
  | buildLate | buildFail | incrNo | driveEnd | downWait | wait => exact ⟨id, id, id, id⟩
  | buildOk => exact ⟨id, fun _ => rfl, id, id⟩
  | incrYes => exact ⟨id, id, id, id⟩
  | arm k =>
    refine ⟨id, id, id, fun h => h.of_at rfl ?_ ?_⟩
    · rintro i ⟨c, h1, h2, h3⟩
      rcases List.mem_append.1 h1 with h1 | h1
      · exact ⟨i, c, h1, h2, h3⟩
      · simp only [List.mem_singleton] at h1; subst h1; cases h3
    · rintro i ⟨c, h1, h2, h3⟩
      rcases List.mem_append.1 h1 with h1 | h1
      · exact ⟨i, .inr ⟨c, h1, h2, h3⟩⟩
      · simp only [List.mem_singleton] at h1; subst h1; cases h3
  | handle => exact ⟨id, id, id, fun h => h.set rfl rfl (by decide) (by decide)⟩
  | free =>
    refine ⟨id, id, id, fun h => h.of_at rfl ?_ ?_⟩
    · intro i a; exact ⟨i, (removeCall_at.1 a).2⟩
    · intro i a; exact ⟨i, .inr (removeCall_at.1 a).2⟩
  | decr => exact ⟨id, fun h => by simp [h], id, id⟩
  | driveOk rest c h1 h2 =>
    refine ⟨id, id, id, fun h => ?_⟩
    exact absurd ⟨c, h1, rfl, h2⟩ (h.2 c.id).1
  | driveClose => exact ⟨id, id, id, fun h => h.set rfl rfl (by decide) (by decide)⟩
  | flagNone | flag => exact ⟨fun _ => rfl, id, id, id⟩
  | downBegin => exact ⟨id, id, fun _ => rfl, fun h => ⟨rfl, h.2⟩⟩
  | cqShutdown => exact ⟨id, id, id, id⟩

theorem StageFact.mono {s s' : Sys} {acts : List Act} (h : StageFact s acts) (m : Mono s s') :
    StageFact s' acts := by
  obtain ⟨h1, h2, h3, h4⟩ := h
  refine ⟨fun e => m.shutdown (h1 e), fun e => ⟨m.shutdown (h2 e).1, m.serverDown (h2 e).2⟩,
    fun e => ⟨m.shutdown (h3 e).1, m.quiet (h3 e).2⟩, fun e => ?_⟩
  obtain ⟨a, b, c⟩ := h4 e
  exact ⟨m.shutdown a, m.notified b, m.quiet c⟩

theorem StageFact.none {s : Sys} {acts : List Act} (h : acts.any isShut = false) :
    StageFact s acts := by
  refine ⟨?_, ?_, ?_, ?_⟩ <;> rintro rfl <;> simp [isShut] at h

/-- Facts about a thread's program that do not depend on the state. -/
structure Shaped (acts : List Act) : Prop where
  shape : acts.any isShut = true → ShutdownStage acts
  run : .build ∈ acts → acts = runProgram

theorem Shaped.tail {a : Act} {rest acts' : List Act} (h : Shaped (a :: rest))
    (ha : isShut a = false) (hb : a ≠ .build) (h1 : acts'.any isShut = true → rest.any isShut = true)
    (h2 : Act.build ∈ acts' → Act.build ∈ rest) :
    Shaped acts' ∧ acts'.any isShut = false := by
  have hno : rest.any isShut = false := by
    apply Bool.eq_false_iff.2
    intro hr
    have := h.shape (by simp [hr])
    cases this <;> simp [isShut] at ha
  have hno' : acts'.any isShut = false := by
    apply Bool.eq_false_iff.2
    intro hr
    rw [h1 hr] at hno
    cases hno
  refine ⟨⟨fun hr => ?_, fun hr => ?_⟩, hno'⟩
  · rw [hno'] at hr; cases hr
  · have := h.run (List.mem_cons_of_mem _ (h2 hr))
    simp only [runProgram, List.cons.injEq] at this
    exact absurd this.1 hb

theorem Shaped.nil : Shaped [] := ⟨by simp, by simp⟩

/-- the moving thread -/
theorem ActStep.own {s s' : Sys} {acts acts' : List Act} (h : ActStep s acts s' acts')
    (hs : Shaped acts) (hf : StageFact s acts) : Shaped acts' ∧ StageFact s' acts' := by
  have go : ∀ {a : Act} {rest : List Act}, acts = a :: rest → isShut a = false → a ≠ .build →
      (acts'.any isShut = true → rest.any isShut = true) → (Act.build ∈ acts' → Act.build ∈ rest) →
      Shaped acts' ∧ StageFact s' acts' := by
    intro a rest e ha hb h1 h2
    subst e
    obtain ⟨x, y⟩ := hs.tail ha hb h1 h2
    exact ⟨x, .none y⟩
  have hm := h.mono
  cases h with
  | buildLate | buildFail | flagNone => exact ⟨.nil, .none rfl⟩
  | buildOk =>
    have := hs.run (by simp)
    simp only [runProgram, List.cons.injEq] at this
    obtain ⟨_, rfl⟩ := this
    exact ⟨⟨by simp [isShut], by simp⟩, .none (by simp [isShut])⟩
  | incrNo => exact go rfl rfl (by simp) id id
  | incrYes => exact go rfl rfl (by simp) (by simp [isShut]) (by simp)
  | arm => exact go rfl rfl (by simp) id id
  | handle => exact go rfl rfl (by simp) id id
  | free => exact go rfl rfl (by simp) id id
  | decr => exact go rfl rfl (by simp) id id
  | driveOk => exact go rfl rfl (by simp) (by simp [isShut]) (by simp)
  | driveClose => exact go rfl rfl (by simp) (by simp [isShut]) (by simp)
  | driveEnd => exact go rfl rfl (by simp) id id
  | flag rest _ =>
    have := hs.shape (by simp [isShut])
    cases this
    exact ⟨⟨fun _ => .begin, by simp⟩, by simp [StageFact]⟩
  | downBegin rest =>
    have := hs.shape (by simp [isShut])
    cases this
    refine ⟨⟨fun _ => .down, by simp⟩, ?_⟩
    have := hf.1 rfl
    simp [StageFact, this]
  | downWait rest hw =>
    have := hs.shape (by simp [isShut])
    cases this
    refine ⟨⟨fun _ => .wait, by simp⟩, ?_⟩
    have h2 := hf.2.1 rfl
    refine ⟨by simp, by simp, fun _ => ⟨h2.1, h2.2, fun id => ⟨?_, ?_⟩⟩, by simp⟩
    · rintro ⟨c, a, _, b⟩; exact (hw c a).1 b
    · rintro ⟨c, a, _, b⟩; exact (hw c a).2 b
  | wait rest hw =>
    have := hs.shape (by simp [isShut])
    cases this
    refine ⟨⟨fun _ => .shut, by simp⟩, ?_⟩
    have h2 := hf.2.2.1 rfl
    exact ⟨by simp, by simp, by simp, fun _ => ⟨h2.1, hw, h2.2⟩⟩
  | cqShutdown rest =>
    have := hs.shape (by simp [isShut])
    cases this
    exact ⟨⟨by simp [isShut], by simp⟩, .none (by simp [isShut])⟩

theorem ActStep.cq {s s' : Sys} {acts acts' : List Act} (h : ActStep s acts s' acts')
    (hs : Shaped acts) (hf : StageFact s acts) (hc : s.cqShut = true → s.shutdown = true ∧ Quiet s) :
    s'.cqShut = true → s'.shutdown = true ∧ Quiet s' := by
  have hm := h.mono
  have go : s'.cqShut = s.cqShut → s'.cqShut = true → s'.shutdown = true ∧ Quiet s' := by
    intro e h
    obtain ⟨a, b⟩ := hc (e ▸ h)
    exact ⟨hm.shutdown a, hm.quiet b⟩
  cases h with
  | cqShutdown rest =>
    intro _
    have := hs.shape (by simp [isShut])
    cases this
    obtain ⟨a, b, c⟩ := hf.2.2.2 rfl
    exact ⟨a, c⟩
  | _ => exact go rfl

/-- the accounting of a thread's step -/
theorem ActStep.core {s s' : Sys} {acts acts' R : List Act} (h : ActStep s acts s' acts')
    (hs : Shaped acts) (hc : Core s (acts ++ R)) : Core s' (acts' ++ R) := by
  cases h with
  | buildLate rest | buildFail rest =>
    have := hs.run (by simp)
    simp only [runProgram, List.cons.injEq] at this
    obtain ⟨_, rfl⟩ := this
    exact hc.untracked (by simp [tracked])
  | buildOk rest =>
    exact (hc.untracked (B := acts' ++ R) (by simp [tracked])).congr ⟨rfl, rfl, rfl, rfl, rfl, rfl⟩
  | incrNo k rest => exact hc.untracked (by simp [tracked])
  | incrYes k rest => exact hc.incrStep
  | arm k rest => exact hc.armStep
  | handle id rest => exact hc.handleStep
  | free id rest => exact hc.freeStep
  | decr rest => exact hc.decrStep
  | driveOk rest c h1 h2 => exact hc.okStep h1 h2
  | driveClose rest c h1 h2 => exact hc.closeStep h1 h2
  | driveEnd rest => exact hc.untracked (by simp [tracked])
  | flagNone rest =>
    have := hs.shape (by simp [isShut])
    cases this
    exact (hc.untracked (B := [] ++ R) (by simp [tracked])).congr ⟨rfl, rfl, rfl, rfl, rfl, rfl⟩
  | flag rest | downBegin rest | cqShutdown rest =>
    exact (hc.untracked (B := acts' ++ R) (by simp [tracked])).congr ⟨rfl, rfl, rfl, rfl, rfl, rfl⟩
  | downWait rest | wait rest => exact hc.untracked (by simp [tracked])

theorem Mono.threads {s s' : Sys} (m : Mono s s') (ts : List (List Act)) :
    Mono s { s' with threads := ts } := ⟨m.shutdown, m.notified, m.serverDown, m.quiet⟩

theorem StageFact.threads {s : Sys} {acts : List Act} (h : StageFact s acts) (ts : List (List Act)) :
    StageFact { s with threads := ts } acts := h

theorem Inv.thread {s s' : Sys} {t : Nat} {acts acts' : List Act} (h : Inv s)
    (ht : s.threads[t]? = some acts) (hst : ActStep s acts s' acts') :
    Inv { s' with threads := s.threads.set t acts' } := by
  obtain ⟨R, hR1, hR2⟩ := flatten_set ht
  have hmem : acts ∈ s.threads := List.mem_of_getElem? ht
  have hsh : Shaped acts := ⟨h.ctl.shape acts hmem, h.ctl.run acts hmem⟩
  obtain ⟨o1, o2⟩ := hst.own hsh (h.ctl.stage acts hmem)
  have hm := hst.mono
  refine ⟨?_, ?_, ?_, ?_, ?_⟩
  · have h1 : Core s (acts ++ R) := h.core.perm hR1
    have h2 := (hst.core hsh h1).perm (hR2 acts').symm
    exact h2.congr ⟨rfl, rfl, rfl, rfl, rfl, rfl⟩
  · intro a ha
    rcases List.mem_or_eq_of_mem_set ha with ha | rfl
    · exact h.ctl.shape a ha
    · exact o1.shape
  · intro a ha
    rcases List.mem_or_eq_of_mem_set ha with ha | rfl
    · exact h.ctl.run a ha
    · exact o1.run
  · intro a ha
    rcases List.mem_or_eq_of_mem_set ha with ha | rfl
    · exact (h.ctl.stage a ha).mono (hm.threads _)
    · exact o2
  · exact hst.cq hsh (h.ctl.stage acts hmem) h.ctl.shut

/-- an event of the environment that moves one call between phases no thread works in -/
theorem Inv.env {s : Sys} (h : Inv s) {c : Call} {q : Phase} (hm : c ∈ s.calls)
    (hp1 : c.phase ≠ .processing) (hp2 : c.phase ≠ .closing) (hq1 : q ≠ .processing)
    (hq2 : q ≠ .closing)
    (hearly : (q = .readyOk ∨ q = .readyFail ∨ q = .armed) → c.phase = .armed)
    (hlate : (c.phase = .finishing ∨ c.phase = .finished) → (q = .finishing ∨ q = .finished))
    (hq : q = .readyOk → s.serverDown = false) :
    Inv { s with calls := setPhase s.calls c.id q } := by
  have mono : Mono s { s with calls := setPhase s.calls c.id q } := by
    refine ⟨id, id, id, fun hQ => ?_⟩
    by_cases e : q = .readyOk
    · have := hQ.1; rw [hq e] at this; cases this
    · exact hQ.set rfl rfl e hq1
  refine ⟨?_, h.ctl.shape, h.ctl.run, ?_, ?_⟩
  · exact h.core.move (p := c.phase) (q := q) (id := c.id) ⟨c, hm, rfl, rfl⟩ hp1 hp2 hq1 hq2 hearly
      hlate rfl rfl rfl rfl rfl rfl
  · intro a ha; exact (h.ctl.stage a ha).mono mono
  · intro hc
    obtain ⟨a, b⟩ := h.ctl.shut hc
    exact ⟨mono.shutdown a, mono.quiet b⟩

theorem Inv.step {s s' : Sys} (h : Inv s) (hst : Step s s') : Inv s' := by
  cases hst with
  | thread s1 t acts acts' ht ha => exact h.thread ht ha
  | callShutdown =>
    refine ⟨?_, ?_, ?_, ?_, h.ctl.shut⟩
    · have h1 : Core s (s.threads ++ [shutdownProgram]).flatten :=
        h.core.untracked (by simp [Sys.acts, shutdownProgram, tracked])
      exact h1.congr ⟨rfl, rfl, rfl, rfl, rfl, rfl⟩
    · intro a ha
      rcases List.mem_append.1 ha with ha | ha
      · exact h.ctl.shape a ha
      · simp only [List.mem_singleton] at ha; subst ha; intro _; exact .flag
    · intro a ha
      rcases List.mem_append.1 ha with ha | ha
      · exact h.ctl.run a ha
      · simp only [List.mem_singleton] at ha; subst ha; simp [shutdownProgram]
    · intro a ha
      rcases List.mem_append.1 ha with ha | ha
      · exact h.ctl.stage a ha
      · simp only [List.mem_singleton] at ha; subst ha; simp [StageFact, shutdownProgram]
  | arrive c h1 h2 h3 =>
    exact h.env h2 (by rw [h3]; decide) (by rw [h3]; decide) (by decide) (by decide) (fun _ => h3)
      (by rw [h3]; rintro (h | h) <;> cases h) (fun _ => h1)
  | cancel c h1 h2 h3 =>
    exact h.env h2 (by rw [h3]; decide) (by rw [h3]; decide) (by decide) (by decide) (fun _ => h3)
      (by rw [h3]; rintro (h | h) <;> cases h) (by intro h; cases h)
  | finished c h2 h3 =>
    exact h.env h2 (by rw [h3]; decide) (by rw [h3]; decide) (by decide) (by decide)
      (by rintro (h | h | h) <;> cases h) (fun _ => .inr rfl) (by intro h; cases h)

theorem Reachable.inv {s : Sys} (h : Reachable s) : Inv s := by
  induction h with
  | init => exact Inv.init
  | step _ hs ih => exact ih.step hs

end Mozolm.Server
