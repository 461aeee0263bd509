import Verif.Server.Lifecycle

/-! # Invariant of the RPC life cycle -/

namespace Mozolm.Server

/-- a live call with this id is in this phase -/
def At (calls : List Call) (id : Nat) (p : Phase) : Prop := ∃ c ∈ calls, c.id = id ∧ c.phase = p

/-- there is a live call with this id -/
def Live (calls : List Call) (id : Nat) : Prop := ∃ c ∈ calls, c.id = id

theorem At.live {calls : List Call} {id : Nat} {p : Phase} (h : At calls id p) : Live calls id := by
  obtain ⟨c, h1, h2, _⟩ := h; exact ⟨c, h1, h2⟩

theorem setPhase_ids (calls : List Call) (id : Nat) (p : Phase) :
    (setPhase calls id p).map Call.id = calls.map Call.id := by
  induction calls with
  | nil => rfl
  | cons c cs ih =>
    simp only [setPhase, List.map_cons, List.cons.injEq] at ih ⊢
    refine ⟨?_, ih⟩
    split <;> rfl

theorem setPhase_length (calls : List Call) (id : Nat) (p : Phase) :
    (setPhase calls id p).length = calls.length := by simp [setPhase]

theorem live_iff {calls : List Call} {id : Nat} : Live calls id ↔ id ∈ calls.map Call.id := by
  simp [Live]

theorem setPhase_live {calls : List Call} {id i : Nat} {p : Phase} :
    Live (setPhase calls id p) i ↔ Live calls i := by
  rw [live_iff, live_iff, setPhase_ids]

theorem setPhase_at {calls : List Call} {id i : Nat} {p q : Phase} :
    At (setPhase calls id p) i q ↔ (i = id ∧ q = p ∧ Live calls id) ∨ (i ≠ id ∧ At calls i q) := by
  constructor
  · rintro ⟨c, h1, h2, h3⟩
    obtain ⟨c0, h4, rfl⟩ := List.mem_map.1 h1
    by_cases h : c0.id = id
    · rw [if_pos h] at h2 h3
      exact .inl ⟨h2.symm.trans h, h3.symm, c0, h4, h⟩
    · rw [if_neg h] at h2 h3
      exact .inr ⟨fun e => h (h2.trans e), c0, h4, h2, h3⟩
  · rintro (⟨rfl, rfl, c, h1, h2⟩ | ⟨hne, c, h1, h2, h3⟩)
    · exact ⟨{ c with phase := q }, List.mem_map.2 ⟨c, h1, by rw [if_pos h2]⟩, h2, rfl⟩
    · exact ⟨c, List.mem_map.2 ⟨c, h1, by rw [if_neg (fun e => hne (h2.symm.trans e))]⟩, h2, h3⟩

theorem removeCall_live {calls : List Call} {id i : Nat} :
    Live (removeCall calls id) i ↔ i ≠ id ∧ Live calls i := by
  simp only [Live, removeCall, List.mem_filter, decide_eq_true_eq]
  constructor
  · rintro ⟨c, ⟨h1, h2⟩, rfl⟩; exact ⟨h2, c, h1, rfl⟩
  · rintro ⟨h, c, h1, rfl⟩; exact ⟨c, ⟨h1, h⟩, rfl⟩

theorem removeCall_at {calls : List Call} {id i : Nat} {q : Phase} :
    At (removeCall calls id) i q ↔ i ≠ id ∧ At calls i q := by
  simp only [At, removeCall, List.mem_filter, decide_eq_true_eq]
  constructor
  · rintro ⟨c, ⟨h1, h2⟩, rfl, h4⟩; exact ⟨h2, c, h1, rfl, h4⟩
  · rintro ⟨h, c, h1, rfl, h4⟩; exact ⟨c, ⟨h1, h⟩, rfl, h4⟩

theorem removeCall_nodup {calls : List Call} (h : (calls.map Call.id).Nodup) (id : Nat) :
    ((removeCall calls id).map Call.id).Nodup :=
  h.sublist (List.filter_sublist.map Call.id)

theorem removeCall_length {calls : List Call} (hn : (calls.map Call.id).Nodup) {id : Nat}
    (hl : Live calls id) : (removeCall calls id).length + 1 = calls.length := by
  induction calls with
  | nil => obtain ⟨c, h, _⟩ := hl; simp at h
  | cons c cs ih =>
    simp only [List.map_cons, List.nodup_cons] at hn
    by_cases h : c.id = id
    · have hcs : removeCall cs id = cs := by
        apply List.filter_eq_self.2
        intro a ha
        simp only [decide_eq_true_eq]
        intro e
        exact hn.1 (List.mem_map.2 ⟨a, ha, e.trans h.symm⟩)
      simp only [removeCall, List.filter_cons] at hcs ⊢
      rw [if_neg (by simp [h]), hcs]
      rfl
    · have hl' : Live cs id := by
        obtain ⟨a, h1, h2⟩ := hl
        simp only [List.mem_cons] at h1
        rcases h1 with rfl | h1
        · exact absurd h2 h
        · exact ⟨a, h1, h2⟩
      have := ih hn.2 hl'
      simp only [removeCall, List.filter_cons] at this ⊢
      rw [if_pos (by simp [h])]
      simp only [List.length_cons]
      omega

theorem at_unique {calls : List Call} (hn : (calls.map Call.id).Nodup) {id : Nat} {p q : Phase}
    (h1 : At calls id p) (h2 : At calls id q) : p = q := by
  induction calls with
  | nil => obtain ⟨c, h, _⟩ := h1; simp at h
  | cons c cs ih =>
    simp only [List.map_cons, List.nodup_cons] at hn
    obtain ⟨a, a1, a2, a3⟩ := h1
    obtain ⟨b, b1, b2, b3⟩ := h2
    simp only [List.mem_cons] at a1 b1
    rcases a1 with rfl | a1 <;> rcases b1 with rfl | b1
    · exact a3.symm.trans b3
    · exact absurd (List.mem_map.2 ⟨b, b1, b2.trans a2.symm⟩) hn.1
    · exact absurd (List.mem_map.2 ⟨a, a1, a2.trans b2.symm⟩) hn.1
    · exact ih hn.2 ⟨a, a1, a2, a3⟩ ⟨b, b1, b2, b3⟩

/-! ## counting what the threads still have to do -/

def isFree : Act → Bool
  | .free _ => true
  | _ => false

def isArm : Act → Bool
  | .arm _ => true
  | _ => false

theorem flatten_set {threads : List (List Act)} {t : Nat} {acts : List Act}
    (h : threads[t]? = some acts) : ∃ R, threads.flatten.Perm (acts ++ R) ∧
      ∀ acts', (threads.set t acts').flatten.Perm (acts' ++ R) := by
  induction threads generalizing t with
  | nil => simp at h
  | cons a as ih =>
    cases t with
    | zero =>
      simp only [List.getElem?_cons_zero, Option.some.injEq] at h
      subst h
      exact ⟨as.flatten, by simp, fun acts' => by simp⟩
    | succ t =>
      simp only [List.getElem?_cons_succ] at h
      obtain ⟨R, h1, h2⟩ := ih h
      refine ⟨a ++ R, ?_, fun acts' => ?_⟩
      · simp only [List.flatten_cons]
        refine (h1.append_left a).trans ?_
        rw [← List.append_assoc, ← List.append_assoc]
        exact List.perm_append_comm.append_right R
      · simp only [List.set_cons_succ, List.flatten_cons]
        refine ((h2 acts').append_left a).trans ?_
        rw [← List.append_assoc, ← List.append_assoc]
        exact List.perm_append_comm.append_right R

/-! ## shape of the programs -/

/-- `Shutdown` runs its steps in order. -/
inductive ShutdownStage : List Act → Prop
  | flag : ShutdownStage [.setFlag, .downBegin, .downWait, .wait, .cqShutdown, .drive]
  | begin : ShutdownStage [.downBegin, .downWait, .wait, .cqShutdown, .drive]
  | down : ShutdownStage [.downWait, .wait, .cqShutdown, .drive]
  | wait : ShutdownStage [.wait, .cqShutdown, .drive]
  | shut : ShutdownStage [.cqShutdown, .drive]

/-- steps that only `Shutdown` contains -/
def isShut : Act → Bool
  | .setFlag | .downBegin | .downWait | .wait | .cqShutdown => true
  | _ => false

/-- the server no longer takes requests and none is being processed -/
def Quiet (s : Sys) : Prop :=
  s.serverDown = true ∧ ∀ id, ¬ At s.calls id .readyOk ∧ ¬ At s.calls id .processing

/-- what is known of the system from the stage a `Shutdown` thread is in -/
def StageFact (s : Sys) (acts : List Act) : Prop :=
  (acts = [.downBegin, .downWait, .wait, .cqShutdown, .drive] → s.shutdown = true) ∧
  (acts = [.downWait, .wait, .cqShutdown, .drive] → s.shutdown = true ∧ s.serverDown = true) ∧
  (acts = [.wait, .cqShutdown, .drive] → s.shutdown = true ∧ Quiet s) ∧
  (acts = [.cqShutdown, .drive] → s.shutdown = true ∧ s.notified = true ∧ Quiet s)

/-- The accounting part of the invariant; `A` is everything the threads still have to do. -/
structure Core (s : Sys) (A : List Act) : Prop where
  nodup : (s.calls.map Call.id).Nodup
  lt : ∀ id, Live s.calls id → id < s.next
  freedNodup : s.freed.Nodup
  freedLt : ∀ id ∈ s.freed, id < s.next ∧ ¬ Live s.calls id
  all : ∀ id, id < s.next → id ∈ s.freed ∨ Live s.calls id
  cf : ∀ id, (A.count (.free id) = 1 ∧ At s.calls id .closing) ∨
    (A.count (.free id) = 0 ∧ ¬ At s.calls id .closing)
  ch : ∀ id, (A.count (.handle id) = 1 ∧ At s.calls id .processing) ∨
    (A.count (.handle id) = 0 ∧ ¬ At s.calls id .processing)
  pend : s.pending = s.calls.length + A.countP isArm + A.count .decr - A.countP isFree
  repNodup : s.replied.Nodup
  rep : ∀ id ∈ s.replied, id ∈ s.accepted ∧ (id ∈ s.freed ∨ At s.calls id .finishing ∨
    At s.calls id .finished ∨ At s.calls id .closing)
  accNodup : s.accepted.Nodup
  acc : ∀ id ∈ s.accepted, id < s.next ∧ (id ∈ s.replied ∨ At s.calls id .processing)
  early : ∀ id, At s.calls id .armed ∨ At s.calls id .readyOk ∨ At s.calls id .readyFail →
    id ∉ s.accepted
  prc : ∀ id, At s.calls id .processing → id ∈ s.accepted

/-- The control part. -/
structure Ctl (s : Sys) : Prop where
  shape : ∀ acts ∈ s.threads, acts.any isShut = true → ShutdownStage acts
  run : ∀ acts ∈ s.threads, .build ∈ acts → acts = runProgram
  stage : ∀ acts ∈ s.threads, StageFact s acts
  shut : s.cqShut = true → s.shutdown = true ∧ Quiet s

structure Inv (s : Sys) : Prop where
  core : Core s s.acts
  ctl : Ctl s

theorem no_call {id : Nat} {p : Phase} : ¬ At [] id p := by rintro ⟨c, h, _⟩; simp at h

theorem Inv.init : Inv Sys.init where
  core := {
    nodup := List.nodup_nil
    lt := by intro id ⟨c, h, _⟩; simp [Sys.init] at h
    freedNodup := List.nodup_nil
    freedLt := by simp [Sys.init]
    all := by simp [Sys.init]
    cf := fun id => .inr ⟨by simp [Sys.acts, Sys.init, runProgram], no_call⟩
    ch := fun id => .inr ⟨by simp [Sys.acts, Sys.init, runProgram], no_call⟩
    pend := by simp [Sys.acts, Sys.init, runProgram, isArm, isFree]
    repNodup := List.nodup_nil
    rep := by simp [Sys.init]
    accNodup := List.nodup_nil
    acc := by simp [Sys.init]
    early := by simp [Sys.init]
    prc := fun id h => absurd h no_call }
  ctl := {
    shape := by
      intro acts h hs
      simp only [Sys.init, List.mem_singleton] at h
      subst h
      simp [runProgram, isShut] at hs
    run := by
      intro acts h _
      simpa [Sys.init] using h
    stage := by
      intro acts h
      simp only [Sys.init, List.mem_singleton] at h
      subst h
      simp [StageFact, runProgram]
    shut := by simp [Sys.init] }

theorem Core.perm {s : Sys} {A B : List Act} (h : Core s A) (p : A.Perm B) : Core s B :=
  { h with
    cf := fun id => by rw [← p.count_eq]; exact h.cf id
    ch := fun id => by rw [← p.count_eq]; exact h.ch id
    pend := by rw [← p.countP_eq, ← p.countP_eq, ← p.count_eq]; exact h.pend }

/-- the system fields `Core` reads -/
structure SameCore (s s' : Sys) : Prop where
  calls : s'.calls = s.calls
  next : s'.next = s.next
  freed : s'.freed = s.freed
  replied : s'.replied = s.replied
  accepted : s'.accepted = s.accepted
  pending : s'.pending = s.pending

theorem SameCore.refl (s : Sys) : SameCore s s := ⟨rfl, rfl, rfl, rfl, rfl, rfl⟩

theorem Core.congr {s s' : Sys} {A : List Act} (h : Core s A) (e : SameCore s s') : Core s' A := by
  obtain ⟨e1, e2, e3, e4, e5, e6⟩ := e
  obtain ⟨h1, h2, h3, h4, h5, h6, h7, h8, h9, h10, h11, h12, h13, h14⟩ := h
  refine ⟨?_, ?_, ?_, ?_, ?_, ?_, ?_, ?_, ?_, ?_, ?_, ?_, ?_, ?_⟩
  · rw [e1]; exact h1
  · rw [e1, e2]; exact h2
  · rw [e3]; exact h3
  · rw [e1, e2, e3]; exact h4
  · rw [e1, e2, e3]; exact h5
  · rw [e1]; exact h6
  · rw [e1]; exact h7
  · rw [e1, e6]; exact h8
  · rw [e4]; exact h9
  · rw [e1, e3, e4, e5]; exact h10
  · rw [e5]; exact h11
  · rw [e1, e2, e4, e5]; exact h12
  · rw [e1, e5]; exact h13
  · rw [e1, e5]; exact h14

/-- actions that matter for the accounting -/
def tracked : Act → Bool
  | .free _ | .handle _ | .arm _ | .decr => true
  | _ => false

theorem count_filter_tracked (a : Act) (ha : tracked a = true) (A : List Act) :
    (A.filter tracked).count a = A.count a := by
  rw [List.count_filter ha]

theorem countP_tracked (p : Act → Bool) (hp : ∀ a, p a = true → tracked a = true) (A : List Act) :
    (A.filter tracked).countP p = A.countP p := by
  rw [List.countP_filter]
  apply List.countP_congr
  intro a _
  constructor
  · intro h; simp only [Bool.and_eq_true] at h; exact h.1
  · intro h; simp [h, hp a h]

/-- dropping or adding untracked actions -/
theorem Core.untracked {s : Sys} {A B : List Act} (h : Core s A)
    (e : A.filter tracked = B.filter tracked) : Core s B := by
  have hc : ∀ a, tracked a = true → B.count a = A.count a := by
    intro a ha
    rw [← count_filter_tracked a ha A, e, count_filter_tracked a ha B]
  have hp : ∀ p : Act → Bool, (∀ a, p a = true → tracked a = true) → B.countP p = A.countP p := by
    intro p hp
    rw [← countP_tracked p hp A, e, countP_tracked p hp B]
  exact { h with
    cf := fun id => by rw [hc _ rfl]; exact h.cf id
    ch := fun id => by rw [hc _ rfl]; exact h.ch id
    pend := by
      rw [hc _ rfl, hp isArm (by intro a; cases a <;> simp [isArm, tracked]),
        hp isFree (by intro a; cases a <;> simp [isFree, tracked])]
      exact h.pend }

/-- a call changes phase, neither phase being one in which a thread works on it -/
theorem Core.move {s s' : Sys} {A : List Act} (h : Core s A) {id : Nat} {p q : Phase}
    (hp : At s.calls id p) (hp1 : p ≠ .processing) (hp2 : p ≠ .closing) (hq1 : q ≠ .processing)
    (hq2 : q ≠ .closing)
    (hearly : (q = .readyOk ∨ q = .readyFail ∨ q = .armed) → p = .armed)
    (hlate : (p = .finishing ∨ p = .finished) → (q = .finishing ∨ q = .finished))
    (e1 : s'.calls = setPhase s.calls id q) (e2 : s'.next = s.next) (e3 : s'.freed = s.freed)
    (e4 : s'.replied = s.replied) (e5 : s'.accepted = s.accepted) (e6 : s'.pending = s.pending) :
    Core s' A := by
  have hu := fun (x : Phase) (hx : At s.calls id x) => at_unique h.nodup hx hp
  have hiff : ∀ i, ∀ x, x ≠ p → x ≠ q → (At s'.calls i x ↔ At s.calls i x) := by
    intro i x hx1 hx2
    rw [e1, setPhase_at]
    constructor
    · rintro (⟨_, h2, _⟩ | ⟨_, h2⟩)
      · exact absurd h2 hx2
      · exact h2
    · intro hx
      refine .inr ⟨?_, hx⟩
      rintro rfl
      exact hx1 (hu x hx)
  have hlive : ∀ i, Live s'.calls i ↔ Live s.calls i := by
    intro i; rw [e1]; exact setPhase_live
  refine ⟨?_, ?_, ?_, ?_, ?_, ?_, ?_, ?_, ?_, ?_, ?_, ?_, ?_, ?_⟩
  · rw [e1, setPhase_ids]; exact h.nodup
  · intro i hi; rw [e2]; exact h.lt i ((hlive i).1 hi)
  · rw [e3]; exact h.freedNodup
  · intro i hi; rw [e3] at hi; rw [e2, hlive]; exact h.freedLt i hi
  · intro i hi; rw [e2] at hi; rw [e3, hlive]; exact h.all i hi
  · intro i; rw [hiff i _ hp2.symm hq2.symm]; exact h.cf i
  · intro i; rw [hiff i _ hp1.symm hq1.symm]; exact h.ch i
  · rw [e6, e1, setPhase_length]; exact h.pend
  · rw [e4]; exact h.repNodup
  · intro i hi
    rw [e4] at hi
    rw [e5, e3]
    obtain ⟨a, b⟩ := h.rep i hi
    refine ⟨a, ?_⟩
    rcases b with b | b | b | b
    · exact .inl b
    · right
      by_cases hid : i = id
      · subst hid
        have := hlate (.inl (hu _ b).symm)
        rcases this with rfl | rfl
        · left; rw [e1, setPhase_at]; exact .inl ⟨rfl, rfl, hp.live⟩
        · right; left; rw [e1, setPhase_at]; exact .inl ⟨rfl, rfl, hp.live⟩
      · left; rw [e1, setPhase_at]; exact .inr ⟨hid, b⟩
    · right
      by_cases hid : i = id
      · subst hid
        have := hlate (.inr (hu _ b).symm)
        rcases this with rfl | rfl
        · left; rw [e1, setPhase_at]; exact .inl ⟨rfl, rfl, hp.live⟩
        · right; left; rw [e1, setPhase_at]; exact .inl ⟨rfl, rfl, hp.live⟩
      · right; left; rw [e1, setPhase_at]; exact .inr ⟨hid, b⟩
    · right; right; right
      rw [hiff i _ hp2.symm hq2.symm]; exact b
  · rw [e5]; exact h.accNodup
  · intro i hi
    rw [e5] at hi
    rw [e2, e4, hiff i _ hp1.symm hq1.symm]
    exact h.acc i hi
  · intro i hi
    rw [e5]
    by_cases hid : i = id
    · subst hid
      have hq : q = .readyOk ∨ q = .readyFail ∨ q = .armed := by
        rw [e1] at hi
        rcases hi with hi | hi | hi <;> rcases setPhase_at.1 hi with ⟨_, h2, _⟩ | ⟨h2, _⟩
        · exact .inr (.inr h2.symm)
        · exact absurd rfl h2
        · exact .inl h2.symm
        · exact absurd rfl h2
        · exact .inr (.inl h2.symm)
        · exact absurd rfl h2
      have := hearly hq
      subst this
      exact h.early i (.inl hp)
    · refine h.early i ?_
      rw [e1] at hi
      rcases hi with hi | hi | hi <;> rcases setPhase_at.1 hi with ⟨h2, _⟩ | ⟨_, h2⟩
      · exact absurd h2 hid
      · exact .inl h2
      · exact absurd h2 hid
      · exact .inr (.inl h2)
      · exact absurd h2 hid
      · exact .inr (.inr h2)
  · intro i hi
    rw [e5]
    exact h.prc i ((hiff i _ hp1.symm hq1.symm).1 hi)

end Mozolm.Server
