import Verif.Server.Directory
import Verif.Hub.Demo

/-!
# C79: while there is room, the state ids of a server are a directory of texts

The directory is in `Server/DirectorySpec.lean`.
-/

namespace Mozolm.Server
open Hub
variable {A : Arith} {σ : Type} {env : Env A σ}

theorem directory_snoc (reqs : List Request) (r : Request) : directory (reqs ++ [r]) = visited (directory reqs) r := by
  simp [directory]

/-- **C79** After any history of requests, if the table has room for the texts visited and those of one more request: the
reply to asking for the state of `text` after the text of state `x` is the place of that text in the directory. -/
theorem C79_directory (hf : env.Fair) {models : List σ} {cfg : HubConfig A.C} {reqs : List Request} {h : Hub A σ}
    (hr : Reach env models cfg reqs h) {text : List Int} {x : Int} (ht : Typed (reqs ++ [.getNextState text x]))
    (hroom : (directory (reqs ++ [.getNextState text x])).length ≤ cfgMax cfg)
    (hx : text ≠ [] ∨ toInt32 x < (directory reqs).length) :
    ∃ (k : Nat) (h' : Hub A σ), getNextState env h text x = .ok (.ok (k : Int), h') ∧
      (directory (reqs ++ [.getNextState text x]))[k]? = some (sourceText (directory reqs) (toInt32 x) ++ text) := by
  rw [directory_snoc] at hroom ⊢
  have htx : ∀ c ∈ text, 0 ≤ c := ht (.getNextState text x) (by simp)
  obtain ⟨i1, i2, i3⟩ := hr.indexed hf (fun r hr' => ht r (by simp [hr']))
    (Nat.le_trans (visited_prefix _ _).length_le hroom)
  have hz := sourceText_clamp _ i1.root (toInt32 x)
  obtain ⟨r, h', e, _⟩ := contextLoop_ok hf i2 (if toInt32 x < 0 then 0 else toInt32 x) text
  obtain ⟨_, _, _, a4⟩ := Indexed.context hf htx i1 i2 e (by rw [hz, i3]; exact hroom)
  rw [hz] at a4
  obtain ⟨k, rfl, hk⟩ := a4 (hx.imp_right fun h1 => by
    have := lt_of_getElem?_eq_some i1.root
    split <;> omega)
  refine ⟨k, h', ?_, hk⟩
  simp only [getNextState, contextState, e, ok_bind]

theorem serveAll_snoc (reqs : List Request) (r : Request) (h : Hub A σ) :
    serveAll env h (reqs ++ [r]) = (serveAll env h reqs >>= fun h => serve env h r) := by
  induction reqs generalizing h with
  | nil =>
    show (serve env h r >>= fun h => .ok h) = (Except.ok h >>= fun h => serve env h r)
    rw [ok_bind]
    cases serve env h r <;> rfl
  | cons a as ih =>
    simp only [List.cons_append, serveAll]
    cases serve env h a with
    | error e => rfl
    | ok h1 => simp only [ok_bind]; exact ih h1

theorem Reach.snoc {models : List σ} {cfg : HubConfig A.C} {reqs : List Request} {h h' : Hub A σ}
    (hr : Reach env models cfg reqs h) {r : Request} (he : serve env h r = .ok h') : Reach env models cfg (reqs ++ [r]) h' := by
  obtain ⟨h0, e1, e2⟩ := hr
  exact ⟨h0, e1, by rw [serveAll_snoc, e2, ok_bind]; exact he⟩

theorem Reach.more {models : List σ} {cfg : HubConfig A.C} {reqs : List Request} {h h' : Hub A σ}
    (hr : Reach env models cfg reqs h) {rs : List Request} (he : serveAll env h rs = .ok h') : Reach env models cfg (reqs ++ rs) h' := by
  induction rs generalizing h reqs with
  | nil => cases he; simpa using hr
  | cons r rs ih =>
    obtain ⟨h1, e1, e2⟩ := bind_ok.1 he
    have := ih (hr.snoc e1) e2
    simpa using this

/-- **C79** Ids are stable and tell texts apart: of two requests for the states of texts from the start, with any requests
before and between them, the replies are the same id exactly if the texts are the same. -/
theorem C79_ids (hf : env.Fair) {models : List σ} {cfg : HubConfig A.C} {reqs more : List Request} {t u : List Int} {h1 h2 h3 h4 : Hub A σ}
    {k l : Int} (hr : Reach env models cfg reqs h1) (hk : getNextState env h1 t 0 = .ok (.ok k, h2)) (hm : serveAll env h2 more = .ok h3)
    (hl : getNextState env h3 u 0 = .ok (.ok l, h4)) (ht : Typed (reqs ++ .getNextState t 0 :: more ++ [.getNextState u 0]))
    (hroom : (directory (reqs ++ .getNextState t 0 :: more ++ [.getNextState u 0])).length ≤ cfgMax cfg) : k = l ↔ t = u := by
  have hr3 : Reach env models cfg (reqs ++ .getNextState t 0 :: more) h3 := by
    refine hr.more (rs := .getNextState t 0 :: more) ?_
    simp only [serveAll, serve, hk, ok_bind]; exact hm
  have p1 : directory (reqs ++ [.getNextState t 0]) <+: directory (reqs ++ .getNextState t 0 :: more ++ [.getNextState u 0]) := by
    have : reqs ++ .getNextState t 0 :: more ++ [.getNextState u 0] = (reqs ++ [.getNextState t 0]) ++ (more ++ [.getNextState u 0]) := by simp
    rw [this]
    show directory (reqs ++ [.getNextState t 0]) <+: List.foldl visited [[]] ((reqs ++ [.getNextState t 0]) ++ (more ++ [.getNextState u 0]))
    rw [List.foldl_append]
    exact visitedAll_prefix _ _
  have pos : ∀ rs : List Request, 0 < (directory rs).length := by
    intro rs
    exact (visitedAll_prefix rs [[]]).length_le
  have z : toInt32 0 = 0 := by decide
  have root : ∀ rs : List Request, sourceText (directory rs) 0 = [] := by
    intro rs
    have : (directory rs)[0]? = some [] := prefix_get (visitedAll_prefix rs [[]]) rfl
    exact sourceText_get (k := 0) this
  obtain ⟨k', h', a1, a2⟩ := C79_directory hf hr (text := t) (x := 0) (fun r hm => ht r (by
    simp at hm ⊢; rcases hm with h | h <;> simp [h])) (Nat.le_trans p1.length_le hroom) (.inr (by rw [z]; have := pos reqs; omega))
  obtain ⟨l', h'', b1, b2⟩ := C79_directory hf hr3 (text := u) (x := 0) ht hroom (.inr (by rw [z]; have := pos (reqs ++ .getNextState t 0 :: more); omega))
  rw [hk] at a1; cases a1
  rw [hl] at b1; cases b1
  rw [z, root, List.nil_append] at a2 b2
  have a2' := prefix_get p1 a2
  obtain ⟨e4, _⟩ := bind_ok.1 hl
  have hr4 : Reach env models cfg (reqs ++ .getNextState t 0 :: more ++ [.getNextState u 0]) h4 := by
    refine hr3.snoc ?_
    simp only [serve, hl, ok_bind]
  have nd := (hr4.indexed hf ht hroom).1.nodup
  constructor
  · intro e
    have : k' = l' := by omega
    subst this
    rw [a2'] at b2
    exact Option.some.inj b2
  · intro e
    subst e
    rw [nodup_get nd a2' b2]

/-- There is room if the symbols of the requests are not more than the states. -/
theorem directory_room (reqs : List Request) : ∀ ts : List (List Int),
    (reqs.foldl visited ts).length ≤ ts.length + (reqs.map fun r => 2 * r.text.length).sum := by
  induction reqs with
  | nil => intro ts; simp
  | cons r rs ih =>
    intro ts
    have h1 := ih (visited ts r)
    have h2 : (visited ts r).length ≤ ts.length + 2 * r.text.length := by
      cases r with
      | getNextState ctx s =>
        have := visits_length ctx ts (sourceText ts (toInt32 s))
        simp only [visited, Request.text]; omega
      | getLMScores ctx s =>
        have := visits_length ctx ts (sourceText ts (toInt32 s))
        simp only [visited, Request.text]; omega
      | updateLMScores s cs n =>
        have a := visits_length cs ts (sourceText ts (toInt32 s))
        have b := visits_length cs (visits ts (sourceText ts (toInt32 s)) cs) (sourceText (visits ts (sourceText ts (toInt32 s)) cs) (toInt32 s))
        simp only [visited, Request.text]; omega
    simp only [List.foldl_cons, List.map_cons, List.sum_cons]
    omega

/-- C79 met: the states of "ab" and, counted at "a", of "aa"; asking for "ac", then for "aa" at "a". -/
example : directory [.getNextState [97, 98] 0, .updateLMScores 1 [97] 1] = [[], [97], [97, 98], [97, 97]] ∧
    directory [.getNextState [97, 98] 0, .updateLMScores 1 [97] 1, .getNextState [99] 1] = [[], [97], [97, 98], [97, 97], [97, 99]] ∧
    ∃ h h', Reach Demo.recorder [[]] Demo.cfg10 [.getNextState [97, 98] 0, .updateLMScores 1 [97] 1] h ∧
      getNextState Demo.recorder h [99] 1 = .ok (.ok 4, h') ∧
      ∃ h'', getNextState Demo.recorder h' [97, 97] 0 = .ok (.ok 3, h'') :=
  ⟨by decide, by decide, _, _, ⟨_, rfl, rfl⟩, rfl, _, rfl⟩

/-- An id that no state has: counting "ab" at 2, in a table of one state, visits "a" and "ab" and then, from the latter,
"aba" and "abab". -/
example : directory [.updateLMScores 2 [97, 98] 1] = [[], [97], [97, 98], [97, 98, 97], [97, 98, 97, 98]] ∧
    ∃ h, Reach Demo.recorder [[]] Demo.cfg10 [.updateLMScores 2 [97, 98] 1] h ∧ h.states.length = 5 :=
  ⟨by decide, _, ⟨_, rfl, rfl⟩, rfl⟩

/-- **C79** Without room it is false: in a table of ten states, the state of the tenth text takes the place of another. -/
theorem C79_full : ∃ (h1 h2 h3 h4 : Hub Arith.unit (List (Int × List Int))) (k : Int),
    Reach Demo.recorder [[]] Demo.cfg10 [] h1 ∧
    getNextState Demo.recorder h1 [1] 0 = .ok (.ok k, h2) ∧ serveAll Demo.recorder h2 [.getNextState [2, 2, 2, 2, 2, 2, 2, 2] 0] = .ok h3 ∧
    getNextState Demo.recorder h3 [3] 0 = .ok (.ok k, h4) ∧
    (directory [.getNextState [1] 0, .getNextState [2, 2, 2, 2, 2, 2, 2, 2] 0, .getNextState [3] 0]).length = cfgMax (A := Arith.unit) Demo.cfg10 + 1 :=
  ⟨_, _, _, _, _, ⟨_, rfl, rfl⟩, rfl, rfl, rfl, by decide⟩

end Mozolm.Server
