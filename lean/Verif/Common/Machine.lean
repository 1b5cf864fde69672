/-!
# Running a state machine over a history

Shared by the properties that quantify over histories of API calls. A step
returns `none` when the Rust code panics; a panic ends the run.
-/
namespace Verif

variable {σ α ι ω : Type}

/-- The outputs of a history of calls, in order. A panic is recorded as `none`
and ends the run. -/
def runOutputs (step : σ → ι → Option (σ × ω)) : σ → List ι → List (Option ω)
  | _, [] => []
  | s, i :: is =>
    match step s i with
    | none => [none]
    | some (s', o) => some o :: runOutputs step s' is

/-- The state after a history of calls (`none` if a call panicked). -/
def runState (step : σ → ι → Option (σ × ω)) : σ → List ι → Option σ
  | s, [] => some s
  | s, i :: is =>
    match step s i with
    | none => none
    | some (s', _) => runState step s' is

/-- Every call of the history satisfies `ok` in the state in which it is made. -/
def Admissible (step : σ → ι → Option (σ × ω)) (ok : σ → ι → Prop) : σ → List ι → Prop
  | _, [] => True
  | s, i :: is =>
    ok s i ∧
      match step s i with
      | none => True
      | some (s', _) => Admissible step ok s' is

/-- One step of `mstep` from `s` does what one step of `astep` does from `a`,
and leads to related states. -/
def StepAgrees (R : σ → α → Prop) (m : Option (σ × ω)) (a : Option (α × ω)) : Prop :=
  match m, a with
  | none, none => True
  | some (s', o), some (a', o') => o = o' ∧ R s' a'
  | _, _ => False

theorem refine_outputs {mstep : σ → ι → Option (σ × ω)} {astep : α → ι → Option (α × ω)}
    {R : σ → α → Prop} {ok : α → ι → Prop}
    (h : ∀ s a i, R s a → ok a i → StepAgrees R (mstep s i) (astep a i)) :
    ∀ (is : List ι) (s : σ) (a : α), R s a → Admissible astep ok a is →
      runOutputs mstep s is = runOutputs astep a is := by
  intro is
  induction is with
  | nil => intros; rfl
  | cons i is ih =>
    intro s a hR hA
    obtain ⟨hok, hA⟩ := hA
    have hs := h s a i hR hok
    unfold runOutputs
    revert hs hA
    cases mstep s i with
    | none => cases astep a i with
      | none => intros; rfl
      | some p => intro _ hs; exact absurd hs (by simp [StepAgrees])
    | some q => cases astep a i with
      | none => intro _ hs; exact absurd hs (by simp [StepAgrees])
      | some p =>
        intro hA hs
        obtain ⟨ho, hR'⟩ := hs
        simp only [ho]
        rw [ih q.1 p.1 hR' hA]

theorem refine_states {mstep : σ → ι → Option (σ × ω)}
    {astep : α → ι → Option (α × ω)} {R : σ → α → Prop} {ok : α → ι → Prop}
    (h : ∀ s a i, R s a → ok a i → StepAgrees R (mstep s i) (astep a i)) :
    ∀ (is : List ι) (s : σ) (a : α), R s a → Admissible astep ok a is → ∀ s' a',
      runState mstep s is = some s' → runState astep a is = some a' → R s' a' := by
  intro is
  induction is with
  | nil =>
    intro s a hR _ s' a' hs ha
    simp only [runState, Option.some.injEq] at hs ha
    rw [← hs, ← ha]; exact hR
  | cons i is ih =>
    intro s a hR hA s' a' hs' ha'
    obtain ⟨hok, hA⟩ := hA
    have hstep := h s a i hR hok
    unfold runState at hs' ha'
    cases hm : mstep s i with
    | none => rw [hm] at hs'; simp at hs'
    | some q =>
      cases ha : astep a i with
      | none => rw [ha] at ha'; simp at ha'
      | some p =>
        rw [hm] at hs' hstep
        rw [ha] at ha' hstep hA
        exact ih q.1 p.1 hstep.2 hA s' a' hs' ha'

end Verif
