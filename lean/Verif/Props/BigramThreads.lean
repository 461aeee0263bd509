import Verif.Bigram.ThreadInv

/-! # C21: concurrent use of one bigram model -/

namespace Mozolm.Bigram.Threads

variable {A : Arith} {enc : Int → Str} {m0 : Model} {progs : List (List Op)} {cfg : Config A}

/-- C21: in any interleaving, each completed call answered what it answers when run alone on the model
obtained by the updates completed before it, in their order of completion (so in particular counts
and normaliser are those of one moment). -/
theorem C21_every_answer_is_sequential (hm : Reachable m0) (h : Reaches A enc m0 progs cfg)
    {pre post : List (Event A)} {ev : Event A} (he : cfg.events = pre ++ ev :: post) :
    ∃ m, run m0 (updates pre) = .ok m ∧ Correct A enc m ev := by
  obtain ⟨v, c, m1, us, h1, h2⟩ := hm
  exact (inv_reaches ((run_spec (read_wf h1)).1 m0 h2).1 h).trace pre ev post he

/-- C21: every thread's completed calls are the beginning of its program, in order. -/
theorem C21_program_order (hm : Reachable m0) (h : Reaches A enc m0 progs cfg) {t : Nat}
    {p : List Op} (hp : progs[t]? = some p) : ∃ rest, callsBy t cfg.events ++ rest = p := by
  obtain ⟨v, c, m1, us, h1, h2⟩ := hm
  obtain ⟨th, -, e⟩ := (inv_reaches ((run_spec (read_wf h1)).1 m0 h2).1 h).order t p hp
  exact ⟨_, e⟩

/-- C21: whenever no update is in progress the model is the result of the completed updates in some
sequential order; in particular normalisers are row sums. -/
theorem C21_memory_is_sequential (hm : Reachable m0) (h : Reaches A enc m0 progs cfg)
    (hq : ∀ (t : Nat) (th : Thread), cfg.threads[t]? = some th → ¬ th.midUpdate) :
    run m0 (updates cfg.events) = .ok cfg.mem := by
  obtain ⟨v, c, m1, us, h1, h2⟩ := hm
  obtain ⟨base, b⟩ := (inv_reaches ((run_spec (read_wf h1)).1 m0 h2).1 h).mem
  rw [b.eq hq]; exact b.run

/-! ## Progress -/

theorem plan_defined {m : Model} (w : WF m) {op : Op} (hl : lockless m op = false) :
    ∀ l ∈ plan m op, ∃ x, value m l = some x := by
  have hnorm : ∀ s, ∃ x, value m (.norm (m.fix s)) = some x := fun s =>
    exists_getElem?_of_lt (by rw [w.normLen]; exact w.fix_lt s)
  cases op with
  | update u => intro l hl; cases hl
  | extract s =>
    obtain ⟨row, hr⟩ := exists_getElem?_of_lt (l := m.counts) (i := m.fix s)
      (by rw [w.rowsLen]; exact w.fix_lt s)
    intro l hl
    simp only [plan, hr, Option.getD_some, List.mem_cons, List.mem_flatMap, List.mem_range] at hl
    rcases hl with rfl | ⟨j, hj, hl⟩
    · exact hnorm s
    · simp only [List.not_mem_nil, or_false] at hl
      rcases hl with rfl | rfl
      · obtain ⟨x, hx⟩ := exists_getElem?_of_lt hj
        exact ⟨x, by simp [value, hr, hx]⟩
      · exact hnorm s
  | score s c =>
    have hcov : covered m s c = true := by simpa [lockless] using hl
    simp only [covered, Model.validState, Bool.and_eq_true, decide_eq_true_eq] at hcov
    obtain ⟨x, hx, -⟩ := w.count_some (w.fix_lt s)
      (j := (nextState m (m.fix s : Nat) c).toNat) (by omega)
    intro l hl
    simp only [plan, List.mem_cons, List.not_mem_nil, or_false] at hl
    rcases hl with rfl | rfl
    · exact ⟨x, hx⟩
    · exact hnorm s

theorem all_others {l : List Thread} {t : Nat} {p : Thread → Bool} (h0 : p ⟨[], .idle⟩ = true)
    (h : ∀ (t' : Nat) (th : Thread), t ≠ t' → l[t']? = some th → p th = true) :
    (l.set t ⟨[], .idle⟩).all p = true := by
  rw [List.all_eq_true]
  intro x hx
  obtain ⟨k, hk⟩ := List.mem_iff_getElem?.1 hx
  rw [List.getElem?_set] at hk
  split at hk
  · split at hk
    · cases hk; exact h0
    · cases hk
  · next hne => exact h k x hne hk

/-- C21: no deadlock.  As long as some thread has calls left, some thread can make a step, even when
readers also have to wait for waiting writers; unless a count is about to leave the 64-bit range. -/
theorem C21_no_deadlock (hm : Reachable m0) (h : Reaches A enc m0 progs cfg)
    (hleft : ∃ (t : Nat) (th : Thread), cfg.threads[t]? = some th ∧ th.todo ≠ []) :
    (∃ t cfg', step A enc true cfg t = some cfg') ∨
      ∃ (t : Nat) (th : Thread), cfg.threads[t]? = some th ∧ Overflows cfg th := by
  obtain ⟨v, c, m1, us, h1, h2⟩ := hm
  have inv := inv_reaches ((run_spec (read_wf h1)).1 m0 h2).1 h
  obtain ⟨base, b⟩ := inv.mem
  -- a thread inside both locks
  by_cases hC : ∃ (t : Nat) (th : Thread), cfg.threads[t]? = some th ∧
      ((∃ l g, th.pc = .reading l g) ∨ (∃ i cs, th.pc = .writing i cs) ∨ ∃ i j cs, th.pc = .half i j cs)
  · obtain ⟨t, ⟨todo, pc⟩, hg, hpc⟩ := hC
    have htc := b.tc t _ hg
    rcases hpc with ⟨l, g, rfl⟩ | ⟨i, cs, rfl⟩ | ⟨i, j, cs, rfl⟩
    · obtain ⟨op, rest, gone, rfl, hmode, hl, hp, hv⟩ := htc
      left
      refine ⟨t, ?_⟩
      unfold step
      simp only [hg]
      cases l with
      | nil => exact ⟨_, rfl⟩
      | cons l ls =>
        have hEq : cfg.mem = base := mem_eq_of_reader b inv.excl hg (by show some op.mode = _; rw [hmode])
        obtain ⟨x, hx⟩ := plan_defined b.wf hl l (by rw [hp]; simp)
        simp only [hEq, hx]
        exact ⟨_, rfl⟩
    · obtain ⟨u, rest, rfl, hi, hup⟩ := htc
      left
      refine ⟨t, ?_⟩
      unfold step
      simp only [hg]
      cases cs with
      | nil => exact ⟨_, rfl⟩
      | cons c cs =>
        simp only
        split
        · exact ⟨_, rfl⟩
        · obtain ⟨x, hx⟩ := exists_getElem?_of_lt (l := cfg.mem.norm) (i := i)
            (by rw [b.shape.norm, b.utf8]; exact hi)
          simp only [bumpNorm, hx]
          exact ⟨_, rfl⟩
    · obtain ⟨u, rest, rfl, hi, hj, hup⟩ := htc
      obtain ⟨row, hr⟩ := exists_getElem?_of_lt (l := cfg.mem.counts) (i := i)
        (by rw [b.shape.rows, b.utf8]; exact hi)
      obtain ⟨x, hx⟩ := exists_getElem?_of_lt (l := row) (i := j)
        (by rw [b.shape.row row (List.mem_of_getElem? hr), b.utf8]; exact hj)
      rcases Int.lt_or_le maxInt64 (x + u.count) with hov | hov
      · right
        exact ⟨t, _, hg, u, rest, i, j, cs, x, rfl, rfl, by simp [Model.count, hr, hx], hov⟩
      · left
        refine ⟨t, ?_⟩
        unfold step
        simp only [hg, bumpCount, hr, hx]
        rw [if_pos hov]
        exact ⟨_, rfl⟩
  · by_cases hR : ∃ (t : Nat) (th : Thread), cfg.threads[t]? = some th ∧ th.pc = .relN
    · obtain ⟨t, ⟨todo, pc⟩, hg, rfl⟩ := hR
      have htc := b.tc t _ hg
      left
      refine ⟨t, ?_⟩
      unfold step
      simp only [hg]
      cases todo with
      | nil => exact absurd rfl htc
      | cons op rest => exact ⟨_, rfl⟩
    · by_cases hH : ∃ (t : Nat) (th : Thread), cfg.threads[t]? = some th ∧ th.pc = .haveN
      · obtain ⟨t, ⟨todo, pc⟩, hg, rfl⟩ := hH
        obtain ⟨op, rest, rfl, hl⟩ := b.tc t _ hg
        left
        refine ⟨t, ?_⟩
        unfold step
        simp only [hg]
        rw [if_pos]
        · exact ⟨_, rfl⟩
        · refine all_others (by cases op <;> rfl) fun t' th' hne hg' => ?_
          have hnoC : th'.holdsC = none := by
            unfold Thread.holdsC
            cases hp : th'.pc with
            | idle => rfl
            | haveN => rfl
            | relN => rfl
            | reading l g => exact absurd ⟨t', th', hg', .inl ⟨l, g, hp⟩⟩ hC
            | writing i cs => exact absurd ⟨t', th', hg', .inr (.inl ⟨i, cs, hp⟩)⟩ hC
            | half i j cs => exact absurd ⟨t', th', hg', .inr (.inr ⟨i, j, cs, hp⟩)⟩ hC
          cases hmd : op.mode with
          | write => simp [compatC, hnoC]
          | read =>
            simp only [compatC, hnoC, Bool.not_true, Bool.false_or]
            cases hp : th'.pc with
            | haveN =>
              cases hmd' : th'.mode? with
              | none => rfl
              | some md =>
                cases md with
                | read => rfl
                | write =>
                  have hw : th'.holdsN = some .write := by unfold Thread.holdsN; rw [hp]; exact hmd'
                  have := inv.excl t' t th' _ hne.symm hg' hg hw
                  cases this
            | _ => rfl
      · -- every thread is outside the locks
        have hidle : ∀ (t : Nat) (th : Thread), cfg.threads[t]? = some th → th.pc = .idle := by
          intro t th hg
          cases hp : th.pc with
          | idle => rfl
          | haveN => exact absurd ⟨t, th, hg, hp⟩ hH
          | relN => exact absurd ⟨t, th, hg, hp⟩ hR
          | reading l g => exact absurd ⟨t, th, hg, .inl ⟨l, g, hp⟩⟩ hC
          | writing i cs => exact absurd ⟨t, th, hg, .inr (.inl ⟨i, cs, hp⟩)⟩ hC
          | half i j cs => exact absurd ⟨t, th, hg, .inr (.inr ⟨i, j, cs, hp⟩)⟩ hC
        have hnoN : ∀ (t : Nat) (th : Thread), cfg.threads[t]? = some th → th.holdsN = none := by
          intro t th hg; unfold Thread.holdsN; rw [hidle t th hg]
        left
        by_cases hW : ∃ (t : Nat) (th : Thread) (op : Op) (rest : List Op),
            cfg.threads[t]? = some th ∧ th.todo = op :: rest ∧ op.mode = .write
        · obtain ⟨t, ⟨todo, pc⟩, op, rest, hg, rfl, hmd⟩ := hW
          have := hidle t _ hg
          simp only at this
          subst this
          refine ⟨t, ?_⟩
          unfold step
          simp only [hg]
          split
          · exact ⟨_, rfl⟩
          · rw [if_pos]
            · exact ⟨_, rfl⟩
            · rw [hmd]
              refine all_others rfl fun t' th' hne hg' => ?_
              simp [compatN, hnoN t' th' hg']
        · obtain ⟨t, ⟨todo, pc⟩, hg, hne0⟩ := hleft
          have := hidle t _ hg
          simp only at this
          subst this
          cases todo with
          | nil => exact absurd rfl hne0
          | cons op rest =>
            refine ⟨t, ?_⟩
            unfold step
            simp only [hg]
            split
            · exact ⟨_, rfl⟩
            · rw [if_pos]
              · exact ⟨_, rfl⟩
              · have hmd : op.mode = .read := by
                  cases hmd : op.mode with
                  | read => rfl
                  | write => exact absurd ⟨t, _, op, rest, hg, rfl, hmd⟩ hW
                rw [hmd]
                refine all_others rfl fun t' th' hne hg' => ?_
                simp only [compatN, hnoN t' th' hg', Bool.not_true, Bool.false_or]
                cases htd : th'.todo with
                | nil => simp [Thread.mode?, htd]
                | cons op' rest' =>
                  cases hmd' : op'.mode with
                  | read => simp [Thread.mode?, htd, hmd']
                  | write => exact absurd ⟨t', th', op', rest', hg', htd, hmd'⟩ hW

/-! ## Termination -/

/-- steps a call needs, with `n` symbols in the vocabulary -/
def opWork (n : Nat) : Op → Nat
  | .extract _ => 2 * n + 5
  | .score _ _ => 6
  | .update u => 2 * u.syms.length + 4

def pcWork (n : Nat) (op : Op) : Pc → Nat
  | .idle => opWork n op
  | .haveN => opWork n op - 1
  | .reading l _ => l.length + 2
  | .writing _ cs => 2 * cs.length + 2
  | .half _ _ cs => 2 * cs.length + 3
  | .relN => 1

def thWork (n : Nat) (th : Thread) : Nat :=
  match th.todo with
  | [] => 0
  | op :: rest => pcWork n op th.pc + (rest.map (opWork n)).sum

def work (n : Nat) (l : List Thread) : Nat := (l.map (thWork n)).sum

theorem thWork_idle (n : Nat) (l : List Op) : thWork n ⟨l, .idle⟩ = (l.map (opWork n)).sum := by
  cases l <;> rfl

theorem work_set {n : Nat} {l : List Thread} {t : Nat} {th0 th : Thread} (hg : l[t]? = some th0)
    (h : thWork n th < thWork n th0) : work n (l.set t th) < work n l := by
  unfold work
  induction l generalizing t with
  | nil => cases hg
  | cons a l ih =>
    cases t with
    | zero => simp only [List.getElem?_cons_zero, Option.some.injEq] at hg; subst hg; simpa using h
    | succ t =>
      simp only [List.getElem?_cons_succ] at hg
      have := ih hg
      simpa using this

theorem plan_length {m : Model} (hs : Shape m) (op : Op) :
    (plan m op).length + 4 ≤ opWork m.utf8.length op := by
  cases op with
  | update u => simp [plan, opWork]
  | score s c => simp [plan, opWork]
  | extract s =>
    have hf : ∀ k st, ((List.range k).flatMap fun j => [Loc.count st j, Loc.norm st]).length = 2 * k := by
      intro k st
      induction k with
      | zero => rfl
      | succ k ih => rw [List.range_succ, List.flatMap_append, List.length_append, ih]; simp; omega
    have hrow : ((m.counts[m.fix s]?).getD []).length ≤ m.utf8.length := by
      cases hr : m.counts[m.fix s]? with
      | none => simp
      | some row => simp [hs.row row (List.mem_of_getElem? hr)]
    simp only [plan, opWork, List.length_cons, hf]
    omega

theorem step_work (inv : Inv A enc m0 progs cfg) {t : Nat} {strict : Bool} {cfg' : Config A}
    (hs : step A enc strict cfg t = some cfg') :
    cfg'.mem.utf8 = cfg.mem.utf8 ∧
      work cfg.mem.utf8.length cfg'.threads < work cfg.mem.utf8.length cfg.threads := by
  obtain ⟨base, b⟩ := inv.mem
  unfold step at hs
  cases hg : cfg.threads[t]? with
  | none => simp [hg] at hs
  | some th =>
    obtain ⟨todo, pc⟩ := th
    cases todo with
    | nil => simp [hg] at hs
    | cons op rest =>
      simp only [hg] at hs
      cases pc with
      | idle =>
        simp only at hs
        have hpos : 4 ≤ opWork cfg.mem.utf8.length op := by cases op <;> simp [opWork]
        split at hs
        · cases hs
          refine ⟨rfl, work_set hg ?_⟩
          rw [thWork_idle]
          simp only [thWork, pcWork]; omega
        · split at hs
          · cases hs
            refine ⟨rfl, work_set hg ?_⟩
            simp only [thWork, pcWork]; omega
          · cases hs
      | haveN =>
        simp only at hs
        split at hs
        · cases hs
          refine ⟨rfl, work_set hg ?_⟩
          have := plan_length b.shape op
          cases op with
          | update u =>
            by_cases h0 : u.count ≤ 0
            · have e : enter cfg.mem (.update u) = .writing 0 [] := if_pos h0
              simp only [thWork, e, pcWork, opWork, List.length_nil]; omega
            · have e : enter cfg.mem (.update u) = .writing (cfg.mem.fix u.state) u.syms := if_neg h0
              simp only [thWork, e, pcWork, opWork]; omega
          | extract s => simp only [thWork, enter, pcWork]; omega
          | score s c => simp only [thWork, enter, pcWork]; omega
        · cases hs
      | reading locs got =>
        cases locs with
        | nil =>
          simp only [Option.some.injEq] at hs
          subst hs
          refine ⟨rfl, work_set hg ?_⟩
          simp only [thWork, pcWork, List.length_nil]; omega
        | cons l ls =>
          simp only at hs
          split at hs
          · cases hs
          · cases hs
            refine ⟨rfl, work_set hg ?_⟩
            simp only [thWork, pcWork, List.length_cons]; omega
      | writing i cs =>
        cases cs with
        | nil =>
          simp only [Option.some.injEq] at hs
          subst hs
          refine ⟨rfl, work_set hg ?_⟩
          simp only [thWork, pcWork, List.length_nil]; omega
        | cons c cs =>
          obtain ⟨u, rest', e, -⟩ := b.tc t _ hg
          cases e
          simp only at hs
          split at hs
          · cases hs
            refine ⟨rfl, work_set hg ?_⟩
            simp only [thWork, pcWork, List.length_cons]; omega
          · split at hs
            · next m hbm =>
              cases hs
              refine ⟨(bumpNorm_ok hbm b.shape).1, work_set hg ?_⟩
              simp only [thWork, pcWork, List.length_cons]; omega
            · cases hs
      | half i j cs =>
        obtain ⟨u, rest', e, -⟩ := b.tc t _ hg
        cases e
        simp only at hs
        split at hs
        · next m hbm =>
          cases hs
          refine ⟨(bumpCount_ok hbm b.shape).1, work_set hg ?_⟩
          simp only [thWork, pcWork]; omega
        · cases hs
      | relN =>
        simp only [Option.some.injEq] at hs
        subst hs
        refine ⟨rfl, work_set hg ?_⟩
        rw [thWork_idle]
        simp only [thWork, pcWork]; omega

/-- C21: every schedule ends: there is no infinite sequence of steps. -/
theorem C21_every_schedule_ends (hm : Reachable m0) (f : Nat → Config A)
    (h0 : f 0 = start A m0 progs)
    (hs : ∀ n, ∃ t, step A enc false (f n) t = some (f (n + 1))) : False := by
  obtain ⟨v, c, m1, us, h1, h2⟩ := hm
  have w := ((run_spec (read_wf h1)).1 m0 h2).1
  have hr : ∀ n, Reaches A enc m0 progs (f n) := by
    intro n
    induction n with
    | zero => rw [h0]; exact .start
    | succ n ih => obtain ⟨t, ht⟩ := hs n; exact .step ih ht
  have hu : ∀ n, (f n).mem.utf8 = m0.utf8 := by
    intro n
    induction n with
    | zero => rw [h0]; rfl
    | succ n ih => obtain ⟨t, ht⟩ := hs n; rw [(step_work (inv_reaches w (hr n)) ht).1, ih]
  have hd : ∀ n, work m0.utf8.length (f n).threads + n ≤ work m0.utf8.length (f 0).threads := by
    intro n
    induction n with
    | zero => exact Nat.le_refl _
    | succ n ih =>
      obtain ⟨t, ht⟩ := hs n
      have := (step_work (inv_reaches w (hr n)) ht).2
      rw [hu n] at this
      omega
  have := hd (work m0.utf8.length (f 0).threads + 1)
  omega

/-- Concretely: two threads, a reader caught between two updates of another thread. -/
example : ∃ m0, Reachable m0 ∧ ∃ cfg : Config Arith.unit,
    Reaches Arith.unit (fun _ => []) m0
      [[.update ⟨0, [97], 2⟩, .update ⟨0, [97], 1⟩], [.extract 0]] cfg ∧
    cfg.events.length = 1 ∧ ∃ (t : Nat) (th : Thread), cfg.threads[t]? = some th ∧ th.todo ≠ [] := by
  refine ⟨_, ⟨.named (some [57, 55, 10]), .absent, _, [], rfl, rfl⟩, ?_⟩
  refine ⟨_, .step (t := 1) (.step (t := 0) (.step (t := 0) (.step (t := 0) (.step (t := 0)
    (.step (t := 0) (.step (t := 0) .start rfl) rfl) rfl) rfl) rfl) rfl) rfl, rfl, 1, _, rfl, ?_⟩
  simp

end Mozolm.Bigram.Threads
