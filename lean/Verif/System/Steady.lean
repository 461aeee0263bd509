import Verif.System.Trace
import Verif.Hub.Refresh

/-!
# Queries do not change the costs the components give at their states
-/

namespace Mozolm.System
variable {A : Arith} {encode : Int → Str} {fuel : Nat}

theorem word_steady {m m' m0 : Word.Model A.C} (h : WordLive encode fuel m m0) (h' : WordLive encode fuel m' m0)
    {x : Int} (hs : Word.SameInfo m0.static m.imp x m'.imp x) (d : Int) :
    (symScore encode fuel (.word m') x d).1 = (symScore encode fuel (.word m) x d).1 := by
  obtain ⟨r, c1, c2, e1, e2⟩ := Word.score_same h.usable h.enough h.inv h'.inv hs h.cache h'.cache d
  have hm : m = ⟨m0.static, m.imp, m.cache⟩ := by rw [← h.same]
  have hm' : m' = ⟨m0.static, m'.imp, m'.cache⟩ := by rw [← h'.same]
  rw [← hm] at e1
  rw [← hm'] at e2
  simp only [symScore, e1, e2, settle]

theorem word_same {m m0 : Word.Model A.C} {x : Int} (hx : ok (.word m) x) :
    Word.SameInfo m0.static m.imp x m.imp x :=
  ⟨hx.1, hx.1, rfl, Iff.rfl, fun _ _ => Iff.rfl⟩

/-- The components of the system are steady. -/
theorem steady (A : Arith) (encode : Int → Str) (fuel : Nat) : (ops A encode fuel).Steady (live encode fuel) ok where
  closed := closedOn A encode fuel
  next m s c x d h hs hx := by
    by_cases hp : Plain m
    · exact (alike_next hp h hs c).2.1.score x d hx
    · cases m with
      | word m =>
        obtain ⟨m0, h⟩ := h
        obtain ⟨u, hu, hf, hB, hr, hi0⟩ := h.usable.toLoaded.fit
        obtain ⟨r, I, e1, e2, e3, -⟩ := Word.nextState_total hr hf rfl h.encodes h.enough h.inv hs.1 c
        rw [← h.same] at e1
        have h' : WordLive encode fuel { m with imp := I } m0 := ⟨h.usable, h.encodes, h.enough, h.same, e2, h.cache⟩
        have := word_steady h h' (.grows m0.static h.inv.wf e2.wf e3 hx.1 hx.2) d
        simp only [ops, next, e1, settle]
        exact this
      | _ => exact absurd trivial hp
  extract m s x d h hs hx := by
    by_cases hp : Plain m
    · exact (alike_extract hp h hs).2.score x d hx
    · cases m with
      | word m =>
        obtain ⟨m0, h⟩ := h
        obtain ⟨r, c, e, -, h'⟩ := h.extract hs.1
        have := word_steady h h' (word_same hx) d
        simp only [ops, extract, e, settle]
        exact this
      | _ => exact absurd trivial hp
  score m s c x d h hs hx := by
    by_cases hp : Plain m
    · exact (alike_score hp h hs c).2.score x d hx
    · cases m with
      | word m =>
        obtain ⟨m0, h⟩ := h
        obtain ⟨y, k, e, h'⟩ := h.score hs.1 c
        have := word_steady h h' (word_same hx) d
        have e0 : (ops A encode fuel).symScore (.word m) s c = (y, .word { m with cache := k }) := by
          simp only [ops, symScore, e, settle]
        rw [e0]
        exact this
      | _ => exact absurd trivial hp

end Mozolm.System
