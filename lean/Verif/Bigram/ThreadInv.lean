import Verif.Bigram.ThreadLemmas

/-! # Bigram threads: the invariant is preserved by every step -/

namespace Mozolm.Bigram.Threads

structure Shape (m : Model) : Prop where
  norm : m.norm.length = m.utf8.length
  rows : m.counts.length = m.utf8.length
  row : ∀ r ∈ m.counts, r.length = m.utf8.length

/-- calls not yet completed -/
def Thread.pending (th : Thread) : List Op :=
  match th.pc with
  | .relN => th.todo.tail
  | _ => th.todo

/-- what a thread's position says about the memory -/
def TC (base mem : Model) (th : Thread) : Prop :=
  match th.pc with
  | .idle => True
  | .haveN => ∃ op rest, th.todo = op :: rest ∧ lockless base op = false
  | .relN => th.todo ≠ []
  | .reading locs got => ∃ op rest gone, th.todo = op :: rest ∧ op.mode = .read ∧
      lockless base op = false ∧ plan base op = gone ++ locs ∧ got.map some = gone.map (value base)
  | .writing i cs => ∃ u rest, th.todo = .update u :: rest ∧ i < base.utf8.length ∧
      updateLoop mem u.count i cs = upd base u
  | .half i j cs => ∃ u rest, th.todo = .update u :: rest ∧ i < base.utf8.length ∧
      j < base.utf8.length ∧
      (bumpCount mem i j u.count >>= fun m => updateLoop m u.count j cs) = upd base u

def Excl (threads : List Thread) : Prop :=
  ∀ (t t' : Nat) (th th' : Thread), t ≠ t' → threads[t]? = some th → threads[t']? = some th' →
    th.holdsN = some .write → th'.holdsN = none

def Order (A : Arith) (events : List (Event A)) (threads : List Thread) (progs : List (List Op)) :
    Prop :=
  ∀ (t : Nat) (p : List Op), progs[t]? = some p → ∃ th, threads[t]? = some th ∧ callsBy t events ++ th.pending = p

structure Mem (A : Arith) (m0 base : Model) (cfg : Config A) : Prop where
  run : run m0 (updates cfg.events) = .ok base
  wf : WF base
  utf8 : cfg.mem.utf8 = base.utf8
  vocab : cfg.mem.vocab = base.vocab
  shape : Shape cfg.mem
  tc : ∀ (t : Nat) (th : Thread), cfg.threads[t]? = some th → TC base cfg.mem th
  eq : (∀ (t : Nat) (th : Thread), cfg.threads[t]? = some th → ¬ th.midUpdate) → cfg.mem = base

structure Inv (A : Arith) (enc : Int → Str) (m0 : Model) (progs : List (List Op)) (cfg : Config A) :
    Prop where
  mem : ∃ base, Mem A m0 base cfg
  excl : Excl cfg.threads
  trace : ∀ pre ev post, cfg.events = pre ++ ev :: post →
    ∃ m, Bigram.run m0 (updates pre) = .ok m ∧ Correct A enc m ev
  order : Order A cfg.events cfg.threads progs

/-! ## Small facts -/

theorem get_set {l : List Thread} {t : Nat} {th0 th : Thread} (h : l[t]? = some th0) (t' : Nat) :
    (l.set t th)[t']? = if t = t' then some th else l[t']? := by
  rw [List.getElem?_set]
  by_cases e : t = t'
  · subst e; rw [if_pos rfl, if_pos rfl, if_pos (lt_of_getElem?_eq_some h)]
  · rw [if_neg e, if_neg e]

theorem others {l : List Thread} {t : Nat} {p : Thread → Bool}
    (h : (l.set t ⟨[], .idle⟩).all p = true) {t' : Nat} {th : Thread} (hne : t ≠ t')
    (hg : l[t']? = some th) : p th = true := by
  rw [List.all_eq_true] at h
  apply h
  have : (l.set t ⟨[], .idle⟩)[t']? = some th := by
    rw [List.getElem?_set, if_neg hne]; exact hg
  exact List.mem_of_getElem? this

theorem excl_set {l : List Thread} (h : Excl l) {t : Nat} {th0 th : Thread} (hg : l[t]? = some th0)
    (hc : ∀ (t' : Nat) (th' : Thread), t ≠ t' → l[t']? = some th' →
      (th.holdsN = some .write → th'.holdsN = none) ∧ (th'.holdsN = some .write → th.holdsN = none)) :
    Excl (l.set t th) := by
  intro a b x y hab ha hb hx
  rw [get_set hg] at ha hb
  by_cases ea : t = a
  · rw [if_pos ea] at ha
    rw [if_neg (fun e => hab (ea.symm.trans e))] at hb
    cases ha
    exact (hc b y (fun e => hab (ea.symm.trans e)) hb).1 hx
  · rw [if_neg ea] at ha
    by_cases eb : t = b
    · rw [if_pos eb] at hb
      cases hb
      exact (hc a x ea ha).2 hx
    · rw [if_neg eb] at hb
      exact h a b x y hab ha hb hx

theorem excl_same {l : List Thread} (h : Excl l) {t : Nat} {th0 th : Thread} (hg : l[t]? = some th0)
    (hs : th.holdsN = th0.holdsN ∨ th.holdsN = none) : Excl (l.set t th) := by
  refine excl_set h hg fun t' th' hne hg' => ?_
  rcases hs with hs | hs <;> rw [hs]
  · exact ⟨fun hw => h t t' th0 th' hne hg hg' hw, fun hw => h t' t th' th0 hne.symm hg' hg hw⟩
  · exact ⟨fun hw => (by cases hw), fun _ => rfl⟩

theorem callsBy_append {A : Arith} (t : Nat) (a b : List (Event A)) :
    callsBy t (a ++ b) = callsBy t a ++ callsBy t b := by
  simp [callsBy]

theorem updates_append {A : Arith} (a b : List (Event A)) :
    updates (a ++ b) = updates a ++ updates b := by simp [updates]

theorem order_set {A : Arith} {events evs : List (Event A)} {threads : List Thread}
    {progs : List (List Op)} (h : Order A events threads progs) {t : Nat} {th0 th : Thread}
    (hg : threads[t]? = some th0) (hev : ∀ ev ∈ evs, ev.call.1 = t)
    (hp : callsBy t evs ++ th.pending = th0.pending) :
    Order A (events ++ evs) (threads.set t th) progs := by
  intro t' p hp'
  obtain ⟨x, hx, e⟩ := h t' p hp'
  rw [get_set hg]
  by_cases et : t = t'
  · subst et
    rw [hg] at hx; cases hx
    exact ⟨th, by simp, by rw [callsBy_append, List.append_assoc, hp, e]⟩
  · refine ⟨x, by rw [if_neg et]; exact hx, ?_⟩
    have : callsBy t' evs = [] := by
      unfold callsBy
      rw [List.filterMap_eq_nil_iff]
      intro q hq
      obtain ⟨ev, he, rfl⟩ := List.mem_map.1 hq
      rw [if_neg (by rw [hev ev he]; exact et)]
    rw [callsBy_append, this, List.append_nil, e]

theorem trace_snoc {A : Arith} {enc : Int → Str} {m0 m : Model} {events : List (Event A)}
    {ev : Event A}
    (h : ∀ pre ev post, events = pre ++ ev :: post →
      ∃ m, run m0 (updates pre) = .ok m ∧ Correct A enc m ev)
    (hr : run m0 (updates events) = .ok m) (hc : Correct A enc m ev) :
    ∀ pre ev' post, events ++ [ev] = pre ++ ev' :: post →
      ∃ m, run m0 (updates pre) = .ok m ∧ Correct A enc m ev' := by
  intro pre ev' post he
  rcases List.eq_nil_or_concat post with rfl | ⟨post', x, rfl⟩
  · obtain ⟨e1, e2⟩ := List.append_inj' he rfl
    cases e2
    subst e1
    exact ⟨m, hr, hc⟩
  · have he' : events ++ [ev] = (pre ++ ev' :: post') ++ [x] := by simpa using he
    obtain ⟨e1, -⟩ := List.append_inj' he' rfl
    exact h pre ev' post' e1

theorem call_answer {A : Arith} {enc : Int → Str} (m : Model) (t : Nat) (op : Op) (got : List Int) :
    (answer A enc m t op got).call = (t, op) := by cases op <;> rfl

theorem callsBy_answer {A : Arith} {enc : Int → Str} (m : Model) (t : Nat) (op : Op)
    (got : List Int) : callsBy t [answer A enc m t op got] = [op] := by
  simp [callsBy, call_answer]

theorem updates_answer_read {A : Arith} {enc : Int → Str} (m : Model) (t : Nat) {op : Op}
    (got : List Int) (h : op.mode = .read) : updates [answer A enc m t op got] = [] := by
  cases op with
  | update u => cases h
  | _ => rfl

/-- a lock holder that is a reader sees no writer, so the memory is the committed one -/
theorem mem_eq_of_reader {A : Arith} {m0 base : Model} {cfg : Config A} (hm : Mem A m0 base cfg)
    (hx : Excl cfg.threads) {t : Nat} {th : Thread} (hg : cfg.threads[t]? = some th)
    (hh : th.holdsN = some .read) : cfg.mem = base := by
  apply hm.eq
  intro t' th' hg' hmid
  have htc := hm.tc t' th' hg'
  have hw : th'.holdsN = some .write := by
    unfold Thread.midUpdate at hmid
    unfold TC at htc
    unfold Thread.holdsN Thread.mode?
    split at hmid
    · next hpc =>
      rw [hpc] at htc ⊢
      obtain ⟨u, rest, e, -⟩ := htc
      rw [e]; rfl
    · next hpc =>
      rw [hpc] at htc ⊢
      obtain ⟨u, rest, e, -⟩ := htc
      rw [e]; rfl
    · exact hmid.elim
  by_cases e : t' = t
  · subst e; rw [hg] at hg'; cases hg'; rw [hh] at hw; cases hw
  · have := hx t' t th' th e hg' hg hw
    rw [hh] at this; cases this

/-- next to a writer every other thread is outside the locks -/
theorem idle_of_writer {A : Arith} {m0 base : Model} {cfg : Config A} (hm : Mem A m0 base cfg)
    (hx : Excl cfg.threads) {t : Nat} {th : Thread} (hg : cfg.threads[t]? = some th)
    (hh : th.holdsN = some .write) {t' : Nat} {th' : Thread} (hne : t ≠ t')
    (hg' : cfg.threads[t']? = some th') : th'.pc = .idle := by
  have h0 := hx t t' th th' hne hg hg' hh
  have htc := hm.tc t' th' hg'
  unfold TC at htc
  unfold Thread.holdsN Thread.mode? at h0
  cases hp : th'.pc with
  | idle => rfl
  | haveN => rw [hp] at htc h0; obtain ⟨op, rest, e, -⟩ := htc; rw [e] at h0; cases h0
  | relN =>
    rw [hp] at htc h0
    cases e : th'.todo with
    | nil => exact absurd e htc
    | cons a l => rw [e] at h0; cases h0
  | reading l g => rw [hp] at htc h0; obtain ⟨op, rest, gone, e, -⟩ := htc; rw [e] at h0; cases h0
  | writing i cs => rw [hp] at htc h0; obtain ⟨u, rest, e, -⟩ := htc; rw [e] at h0; cases h0
  | half i j cs => rw [hp] at htc h0; obtain ⟨u, rest, e, -⟩ := htc; rw [e] at h0; cases h0

theorem lockless_congr {m m' : Model} (h1 : m.utf8 = m'.utf8) (h2 : m.vocab = m'.vocab) (op : Op) :
    lockless m op = lockless m' op := by
  cases op with
  | score s c =>
    have e : covered m s c = covered m' s c := by
      unfold covered Model.fix Model.validState nextState
      rw [h1, h2]
    simp only [lockless, e]
  | _ => rfl

theorem TC_idle {base mem : Model} {th : Thread} (h : th.pc = .idle) : TC base mem th := by
  unfold TC; rw [h]; trivial

theorem bumpNorm_ok {m m' : Model} {i : Nat} {n : Int} (h : bumpNorm m i n = .ok m')
    (hs : Shape m) : m'.utf8 = m.utf8 ∧ m'.vocab = m.vocab ∧ Shape m' := by
  unfold bumpNorm at h
  split at h
  · cases h; exact ⟨rfl, rfl, ⟨by simpa using hs.norm, hs.rows, hs.row⟩⟩
  · cases h

theorem bumpCount_ok {m m' : Model} {i j : Nat} {n : Int} (h : bumpCount m i j n = .ok m')
    (hs : Shape m) : m'.utf8 = m.utf8 ∧ m'.vocab = m.vocab ∧ Shape m' := by
  unfold bumpCount at h
  split at h
  · next row hr =>
    split at h
    · split at h
      · cases h
        refine ⟨rfl, rfl, hs.norm, by simpa using hs.rows, fun r hr' => ?_⟩
        rcases List.mem_or_eq_of_mem_set hr' with h' | rfl
        · exact hs.row r h'
        · simpa using hs.row row (List.mem_of_getElem? hr)
      · cases h
    · cases h
  · cases h

theorem shape_of_wf {m : Model} (w : WF m) : Shape m := ⟨w.normLen, w.rowsLen, w.rowLen⟩

theorem run_one_wf {m m' : Model} (w : WF m) {u : Update} (h : upd m u = .ok m') :
    WF m' ∧ m'.utf8 = m.utf8 ∧ m'.vocab = m.vocab := by
  obtain ⟨a, b, c, -⟩ := (run_spec w).1 m' h
  exact ⟨a, b, c⟩

theorem updated_of_upd {m m' : Model} {u : Update} (h : upd m u = .ok m') :
    updateLMCounts m u.state u.syms u.count = .ok (true, m') := by
  unfold upd run at h
  obtain ⟨r, e, h⟩ := bind_ok.1 h
  simp only [run, Except.ok.injEq] at h
  have : r.1 = true := by
    unfold updateLMCounts at e
    split at e
    · cases e; rfl
    · obtain ⟨x, -, e⟩ := bind_ok.1 e; cases e; rfl
  rw [e]
  cases r; simp_all

/-! ## Preservation -/

theorem inv_start {A : Arith} {enc : Int → Str} {m0 : Model} (w : WF m0) (progs : List (List Op)) :
    Inv A enc m0 progs (start A m0 progs) := by
  have hidle : ∀ (t : Nat) (th : Thread), (start A m0 progs).threads[t]? = some th → th.pc = .idle := by
    intro t th h
    simp only [start, List.getElem?_map] at h
    cases hp : progs[t]? with
    | none => rw [hp] at h; cases h
    | some p => rw [hp] at h; cases h; rfl
  refine ⟨⟨m0, rfl, w, rfl, rfl, shape_of_wf w, fun t th h => TC_idle (hidle t th h), fun _ => rfl⟩,
    ?_, ?_, ?_⟩
  · intro t t' th th' _ h1 h2 h3
    unfold Thread.holdsN at h3; rw [hidle t th h1] at h3; cases h3
  · intro pre ev post h; simp [start] at h
  · intro t p hp
    refine ⟨⟨p, .idle⟩, by simp [start, hp], ?_⟩
    rfl

/-- a step that changes only the position of a thread inside the locks (no memory, no event) -/
theorem inv_move {A : Arith} {enc : Int → Str} {m0 : Model} {progs : List (List Op)} {cfg : Config A}
    (h : Inv A enc m0 progs cfg) {t : Nat} {th0 th : Thread} (hg : cfg.threads[t]? = some th0)
    (hex : Excl (cfg.threads.set t th)) (hpend : th.pending = th0.pending)
    (hmid : ¬ th.midUpdate → ¬ th0.midUpdate)
    (htc : ∀ base, Mem A m0 base cfg → TC base cfg.mem th) :
    Inv A enc m0 progs { cfg with threads := cfg.threads.set t th } := by
  obtain ⟨base, hm⟩ := h.mem
  refine ⟨⟨base, hm.run, hm.wf, hm.utf8, hm.vocab, hm.shape, ?_, ?_⟩, hex, h.trace, ?_⟩
  · intro t' th' hg'
    simp only [get_set hg] at hg'
    split at hg'
    · cases hg'; exact htc base hm
    · exact hm.tc t' th' hg'
  · intro hno
    apply hm.eq
    intro t' th' hg'
    by_cases e : t = t'
    · subst e; rw [hg] at hg'; cases hg'
      exact hmid (hno t th (by simp only [get_set hg]; simp))
    · exact hno t' th' (by simp only [get_set hg]; rw [if_neg e]; exact hg')
  · have := order_set (evs := []) h.order hg (by simp) (th := th) (by simpa [callsBy] using hpend)
    simpa using this

/-- a step of a writer that changes the memory -/
theorem inv_write {A : Arith} {enc : Int → Str} {m0 : Model} {progs : List (List Op)} {cfg : Config A}
    (h : Inv A enc m0 progs cfg) {t : Nat} {th0 th : Thread} {m : Model}
    (hg : cfg.threads[t]? = some th0) (hw0 : th0.holdsN = some .write)
    (hw : th.holdsN = some .write) (hpend : th.pending = th0.pending) (hmid : th.midUpdate)
    (h1 : m.utf8 = cfg.mem.utf8) (h2 : m.vocab = cfg.mem.vocab) (h3 : Shape m)
    (htc : ∀ base, Mem A m0 base cfg → TC base m th) :
    Inv A enc m0 progs { cfg with threads := cfg.threads.set t th, mem := m } := by
  obtain ⟨base, hm⟩ := h.mem
  refine ⟨⟨base, hm.run, hm.wf, h1.trans hm.utf8, h2.trans hm.vocab, h3, ?_, ?_⟩,
    excl_same h.excl hg (.inl (hw.trans hw0.symm)), h.trace, ?_⟩
  · intro t' th' hg'
    simp only [get_set hg] at hg'
    split at hg'
    · cases hg'; exact htc base hm
    · next hne => exact TC_idle (idle_of_writer hm h.excl hg hw0 hne hg')
  · intro hno
    exact absurd hmid (hno t th (by simp only [get_set hg]; simp))
  · have := order_set (evs := []) h.order hg (by simp) (th := th) (by simpa [callsBy] using hpend)
    simpa using this

/-- a reader's answer -/
theorem inv_answer {A : Arith} {enc : Int → Str} {m0 : Model} {progs : List (List Op)} {cfg : Config A}
    (h : Inv A enc m0 progs cfg) {t : Nat} {th0 th : Thread} {op : Op} {got : List Int}
    (hg : cfg.threads[t]? = some th0) (hmode : op.mode = .read)
    (hheld : th.holdsN = th0.holdsN ∨ th.holdsN = none) (hpend : op :: th.pending = th0.pending)
    (hmid0 : ¬ th0.midUpdate) (hmid : ¬ th.midUpdate)
    (htc : ∀ base mem, TC base mem th)
    (hc : ∀ base, Mem A m0 base cfg → Correct A enc base (answer A enc cfg.mem t op got)) :
    Inv A enc m0 progs { cfg with
      threads := cfg.threads.set t th
      events := cfg.events ++ [answer A enc cfg.mem t op got] } := by
  obtain ⟨base, hm⟩ := h.mem
  refine ⟨⟨base, ?_, hm.wf, hm.utf8, hm.vocab, hm.shape, ?_, ?_⟩, excl_same h.excl hg hheld,
    trace_snoc h.trace hm.run (hc base hm), ?_⟩
  · simp only [updates_append, updates_answer_read cfg.mem t got hmode, List.append_nil]
    exact hm.run
  · intro t' th' hg'
    simp only [get_set hg] at hg'
    split at hg'
    · cases hg'; exact htc _ _
    · exact hm.tc t' th' hg'
  · intro hno
    apply hm.eq
    intro t' th' hg'
    by_cases e : t = t'
    · subst e; rw [hg] at hg'; cases hg'; exact hmid0
    · exact hno t' th' (by simp only [get_set hg]; rw [if_neg e]; exact hg')
  · exact order_set h.order hg (by simp [call_answer]) (by rw [callsBy_answer]; exact hpend)

/-- the end of an update: it becomes part of the history -/
theorem inv_commit {A : Arith} {enc : Int → Str} {m0 : Model} {progs : List (List Op)} {cfg : Config A}
    (h : Inv A enc m0 progs cfg) {t i : Nat} {u : Update} {rest : List Op}
    (hg : cfg.threads[t]? = some ⟨.update u :: rest, .writing i []⟩) :
    Inv A enc m0 progs { cfg with
      threads := cfg.threads.set t ⟨.update u :: rest, .relN⟩
      events := cfg.events ++ [.updated t u] } := by
  obtain ⟨base, hm⟩ := h.mem
  obtain ⟨u', rest', e, hi, hup⟩ := hm.tc t _ hg
  simp only [List.cons.injEq, Op.update.injEq] at e
  obtain ⟨rfl, rfl⟩ := e
  have hw : (⟨.update u :: rest, .writing i []⟩ : Thread).holdsN = some .write := rfl
  have hup : upd base u = .ok cfg.mem := hup.symm
  obtain ⟨w', -, -⟩ := run_one_wf hm.wf hup
  refine ⟨⟨cfg.mem, ?_, w', rfl, rfl, hm.shape, ?_, fun _ => rfl⟩, excl_same h.excl hg (.inl rfl),
    trace_snoc h.trace hm.run ⟨cfg.mem, updated_of_upd hup⟩, ?_⟩
  · simp only [updates_append]
    rw [run_append hm.run]; exact hup
  · intro t' th' hg'
    simp only [get_set hg] at hg'
    split at hg'
    · cases hg'; show _ ≠ _; simp
    · next hne => exact TC_idle (idle_of_writer hm h.excl hg hw hne hg')
  · exact order_set h.order hg (by simp [Event.call]) (by simp [callsBy, Event.call, Thread.pending])

theorem enter_TC {base mem : Model} {op : Op} {rest : List Op} (w : WF base)
    (hl : lockless base op = false) (he : mem = base) :
    TC base mem ⟨op :: rest, enter mem op⟩ := by
  subst he
  cases op with
  | update u =>
    by_cases h0 : u.count ≤ 0
    · have e : enter mem (.update u) = .writing 0 [] := if_pos h0
      rw [e]
      exact ⟨u, rest, rfl, w.pos_len, by rw [upd_eq, if_pos h0]; rfl⟩
    · have e : enter mem (.update u) = .writing (mem.fix u.state) u.syms := if_neg h0
      rw [e]
      exact ⟨u, rest, rfl, w.fix_lt _, by rw [upd_eq, if_neg h0]⟩
  | extract s => exact ⟨.extract s, rest, [], rfl, rfl, rfl, rfl, rfl⟩
  | score s c => exact ⟨.score s c, rest, [], rfl, rfl, hl, rfl, rfl⟩

theorem enter_holdsN (mem : Model) (op : Op) (rest : List Op) :
    (⟨op :: rest, enter mem op⟩ : Thread).holdsN = some op.mode := by
  cases op with
  | update u => simp only [enter]; split <;> rfl
  | _ => rfl

theorem enter_pending (mem : Model) (op : Op) (rest : List Op) :
    (⟨op :: rest, enter mem op⟩ : Thread).pending = op :: rest := by
  cases op with
  | update u => simp only [enter]; split <;> rfl
  | _ => rfl

theorem inv_step {A : Arith} {enc : Int → Str} {m0 : Model} {progs : List (List Op)}
    {cfg cfg' : Config A} (h : Inv A enc m0 progs cfg) {t : Nat} {strict : Bool}
    (hs : step A enc strict cfg t = some cfg') : Inv A enc m0 progs cfg' := by
  unfold step at hs
  cases hg : cfg.threads[t]? with
  | none => simp [hg] at hs
  | some th =>
    obtain ⟨todo, pc⟩ := th
    cases todo with
    | nil => simp [hg] at hs
    | cons op rest =>
      simp only [hg] at hs
      obtain ⟨base0, hm0⟩ := h.mem
      cases pc with
      | idle =>
        simp only at hs
        split at hs
        · next hl =>
          cases hs
          have hop : op.mode = .read := by cases op <;> first | rfl | cases hl
          refine inv_answer h hg hop (.inr rfl) rfl (fun h => h) (fun h => h)
            (fun _ _ => TC_idle rfl) (fun base hm => ?_)
          rw [lockless_congr hm.utf8 hm.vocab] at hl
          cases op with
          | score s c =>
            exact score_uncovered (by simpa [lockless] using hl)
          | _ => cases hl
        · next hl =>
          split at hs
          · next hall =>
            cases hs
            refine inv_move h hg ?_ rfl (fun _ h => h) (fun base hm => ?_)
            · refine excl_set h.excl hg fun t' th' hne hg' => ?_
              have hc := others hall hne hg'
              have hN : (⟨op :: rest, .haveN⟩ : Thread).holdsN = some op.mode := rfl
              rw [hN]
              cases hmd : op.mode with
              | write =>
                rw [hmd] at hc
                have : th'.holdsN = none := by simpa [compatN] using hc
                exact ⟨fun _ => this, fun hw => by rw [this] at hw; cases hw⟩
              | read =>
                rw [hmd] at hc
                simp only [compatN, Bool.and_eq_true, bne_iff_ne] at hc
                exact ⟨fun e => (by cases e), fun hw => absurd hw hc.1⟩
            · rw [lockless_congr hm.utf8 hm.vocab] at hl
              exact ⟨op, rest, rfl, by simpa using hl⟩
          · cases hs
      | haveN =>
        simp only at hs
        split at hs
        · next hall =>
          cases hs
          have hheld : (⟨op :: rest, .haveN⟩ : Thread).holdsN = some op.mode := rfl
          have hEq : ∀ base, Mem A m0 base cfg → cfg.mem = base := by
            intro base hm
            cases hmd : op.mode with
            | read => exact mem_eq_of_reader hm h.excl hg (by rw [hheld, hmd])
            | write =>
              apply hm.eq
              intro t' th' hg' hmid
              by_cases e : t = t'
              · subst e; rw [hg] at hg'; cases hg'; exact hmid
              · have := idle_of_writer hm h.excl hg (by rw [hheld, hmd]) e hg'
                unfold Thread.midUpdate at hmid; rw [this] at hmid; exact hmid
          refine inv_move h hg (excl_same h.excl hg (.inl ?_)) (enter_pending _ _ _)
            (fun _ h => h) (fun base hm => ?_)
          · rw [enter_holdsN]; rfl
          · obtain ⟨op', rest', e, hl⟩ := hm.tc t _ hg
            cases e
            exact enter_TC hm.wf hl (hEq base hm)
        · cases hs
      | reading locs got =>
        cases locs with
        | nil =>
          simp only [Option.some.injEq] at hs
          subst hs
          obtain ⟨op', rest', gone, e, hmode, -⟩ := hm0.tc t _ hg
          cases e
          refine inv_answer h hg hmode (.inl rfl) rfl (fun h => h) (fun h => h)
            (fun _ _ => (by show _ ≠ _; simp)) (fun base hm => ?_)
          obtain ⟨op', rest', gone, e, -, hl, hp, hv⟩ := hm.tc t _ hg
          cases e
          rw [List.append_nil] at hp
          rw [← hp] at hv
          cases op with
          | update u => cases hmode
          | extract s =>
            show extractLMScores A enc base s = .ok (scoresOf A enc cfg.mem.utf8 got)
            rw [hm.utf8]
            exact extract_of_reads hm.wf hv
          | score s c =>
            exact score_of_reads (by simpa [lockless] using hl) hv
        | cons l ls =>
          simp only at hs
          split at hs
          · cases hs
          · next x hx =>
            cases hs
            refine inv_move h hg (excl_same h.excl hg (.inl rfl)) rfl (fun _ h => h)
              (fun base hm => ?_)
            obtain ⟨op', rest', gone, e, hmode, hl, hp, hv⟩ := hm.tc t _ hg
            cases e
            have hEq : cfg.mem = base :=
              mem_eq_of_reader hm h.excl hg (by show some op.mode = _; rw [hmode])
            refine ⟨op, rest, gone ++ [l], rfl, hmode, hl, by rw [hp]; simp, ?_⟩
            rw [hEq] at hx
            simp [hv, hx]
      | writing i cs =>
        obtain ⟨u, rest', e, -⟩ := hm0.tc t _ hg
        cases e
        have hw0 : (⟨.update u :: rest, .writing i cs⟩ : Thread).holdsN = some .write := rfl
        cases cs with
        | nil =>
          simp only [Option.some.injEq] at hs
          subst hs
          exact inv_commit h hg
        | cons c cs =>
          simp only at hs
          split at hs
          · next hneg =>
            cases hs
            refine inv_move h hg (excl_same h.excl hg (.inl rfl)) rfl (fun h _ => h trivial)
              (fun base hm => ?_)
            obtain ⟨u', rest', e, hi, hup⟩ := hm.tc t _ hg
            cases e
            refine ⟨u, rest, rfl, hm.wf.pos_len, ?_⟩
            simp only [updateLoop] at hup
            rw [if_pos hneg] at hup
            exact hup
          · next hneg =>
            split at hs
            · next m hbm =>
              cases hs
              obtain ⟨e1, e2, e3⟩ := bumpNorm_ok hbm hm0.shape
              refine inv_write h hg hw0 rfl rfl trivial e1 e2 e3 (fun base hm => ?_)
              obtain ⟨u', rest', e, hi, hup⟩ := hm.tc t _ hg
              cases e
              have hidx : nextState cfg.mem i c =
                  match position base.utf8 c with | some j => (j : Int) | none => -1 := by
                have e : nextState cfg.mem i c = nextState base i c := by
                  unfold nextState; rw [hm.vocab]
                exact e.trans (hm.wf.index' i c)
              refine ⟨u, rest, rfl, hi, ?_, ?_⟩
              · cases hp : position base.utf8 c with
                | none => rw [hp] at hidx; simp only at hidx; omega
                | some j =>
                  rw [hp] at hidx
                  simp only at hidx
                  rw [hidx]
                  exact lt_of_getElem?_eq_some (position_lt hp)
              · simp only [updateLoop] at hup
                rw [if_neg hneg, bump_split, hbm] at hup
                exact hup
            · cases hs
      | half i j cs =>
        obtain ⟨u, rest', e, -⟩ := hm0.tc t _ hg
        cases e
        have hw0 : (⟨.update u :: rest, .half i j cs⟩ : Thread).holdsN = some .write := rfl
        simp only at hs
        split at hs
        · next m hbm =>
          cases hs
          obtain ⟨e1, e2, e3⟩ := bumpCount_ok hbm hm0.shape
          refine inv_write h hg hw0 rfl rfl trivial e1 e2 e3 (fun base hm => ?_)
          obtain ⟨u', rest', e, hi, hj, hup⟩ := hm.tc t _ hg
          cases e
          rw [hbm] at hup
          exact ⟨u, rest, rfl, hj, hup⟩
        · cases hs
      | relN =>
        simp only [Option.some.injEq] at hs
        subst hs
        exact inv_move h hg (excl_same h.excl hg (.inr rfl)) rfl (fun _ h => h)
          (fun base hm => TC_idle rfl)

theorem inv_reaches {A : Arith} {enc : Int → Str} {m0 : Model} (w : WF m0)
    {progs : List (List Op)} {cfg : Config A} (h : Reaches A enc m0 progs cfg) :
    Inv A enc m0 progs cfg := by
  induction h with
  | start => exact inv_start w progs
  | step _ hs ih => exact inv_step ih hs

end Mozolm.Bigram.Threads
