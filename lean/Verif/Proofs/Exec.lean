import Verif.Model.Basic
/-
Total-correctness triples for `Exec`.
-/
namespace PPP
variable {E α β : Type}

/-- The call terminates; if it succeeds `ok` holds of its value, if it fails `er` holds of the
    failure. -/
def Sat (x : Exec E α) (ok : α → Prop) (er : Fail E → Prop) : Prop :=
  match x.run with
  | none => False
  | some (.ok a) => ok a
  | some (.error e) => er e

theorem Sat.pure {a : α} {ok : α → Prop} {er} (h : ok a) : Sat (E := E) (pure a) ok er := h

theorem Sat.ofRes_ok {a : α} {ok : α → Prop} {er} (h : ok a) :
    Sat (E := E) (Exec.ofRes (.ok a)) ok er := h

theorem Sat.ofRes_error {e} {ok : α → Prop} {er} (h : er e) :
    Sat (E := E) (Exec.ofRes (.error e)) ok er := h

theorem Sat.throwErr {e} {ok : α → Prop} {er} (h : er (.err e)) :
    Sat (E := E) (throwErr e) ok er := h

theorem Sat.panicking {ok : α → Prop} {er} (h : er .panic) :
    Sat (E := E) panicking ok er := h

theorem Sat.overflowing {ok : α → Prop} {er} (h : er .overflow) :
    Sat (E := E) overflowing ok er := h

theorem Exec.run_bind (x : Exec E α) (f : α → Exec E β) :
    (x >>= f).run = match x.run with
      | none => none
      | some (.ok a) => (f a).run
      | some (.error e) => some (.error e) := by
  change (ExceptT.bind x f).run = _
  unfold ExceptT.bind ExceptT.run ExceptT.mk
  change Option.bind x (ExceptT.bindCont f) = _
  match x with
  | none => rfl
  | some (.ok a) => rfl
  | some (.error e) => rfl

theorem Sat.bind {x : Exec E α} {f : α → Exec E β} {ok : β → Prop} {er}
    (h : Sat x (fun a => Sat (f a) ok er) er) : Sat (x >>= f) ok er := by
  unfold Sat at *
  rw [Exec.run_bind]
  match hx : x.run with
  | none => simp [hx] at h
  | some (.ok a) => simpa [hx] using h
  | some (.error e) => simpa [hx] using h

theorem Sat.mono {x : Exec E α} {ok ok' : α → Prop} {er er'} (h : Sat x ok er)
    (h1 : ∀ a, ok a → ok' a) (h2 : ∀ e, er e → er' e) : Sat x ok' er' := by
  unfold Sat at *
  match hx : x.run with
  | none => simp [hx] at h
  | some (.ok a) => rw [hx] at h; exact h1 _ h
  | some (.error e) => rw [hx] at h; exact h2 _ h

theorem Sat.bind' {x : Exec E α} {f : α → Exec E β} {ok : β → Prop} {er} {mid} {er'}
    (h : Sat x mid er') (h1 : ∀ a, mid a → Sat (f a) ok er) (h2 : ∀ e, er' e → er e) :
    Sat (x >>= f) ok er := Sat.bind (h.mono h1 h2)

theorem Sat.and {x : Exec E α} {ok ok' : α → Prop} {er er'} (h : Sat x ok er) (h' : Sat x ok' er') :
    Sat x (fun a => ok a ∧ ok' a) (fun e => er e ∧ er' e) := by
  unfold Sat at *
  match hx : x.run with
  | none => simp [hx] at h
  | some (.ok a) => rw [hx] at h h'; exact ⟨h, h'⟩
  | some (.error e) => rw [hx] at h h'; exact ⟨h, h'⟩

/-- A terminated call, as a triple. -/
theorem Sat.exists_res {x : Exec E α} {ok : α → Prop} {er} (h : Sat x ok er) :
    (∃ a, x = Exec.ofRes (.ok a) ∧ ok a) ∨ (∃ e, x = Exec.ofRes (.error e) ∧ er e) := by
  unfold Sat at h
  match hx : x.run with
  | none => simp [hx] at h
  | some (.ok a) => rw [hx] at h; exact .inl ⟨a, hx, h⟩
  | some (.error e) => rw [hx] at h; exact .inr ⟨e, hx, h⟩

theorem Sat.of_eq_ok {x : Exec E α} {a : α} {ok : α → Prop} {er} (hx : x = Exec.ofRes (.ok a))
    (h : ok a) : Sat x ok er := by subst hx; exact h

theorem Sat.of_eq_error {x : Exec E α} {e} {ok : α → Prop} {er} (hx : x = Exec.ofRes (.error e))
    (h : er e) : Sat x ok er := by subst hx; exact h

@[simp] theorem Exec.ofRes_ok_bind (a : α) (f : α → Exec E β) :
    (Exec.ofRes (.ok a) >>= f) = f a := rfl
@[simp] theorem Exec.ofRes_error_bind (e) (f : α → Exec E β) :
    (Exec.ofRes (.error e) >>= f) = Exec.ofRes (.error e) := rfl
theorem Exec.pure_eq (a : α) : (Pure.pure a : Exec E α) = Exec.ofRes (.ok a) := rfl
@[simp] theorem Exec.pure_bind' (a : α) (f : α → Exec E β) :
    ((Pure.pure a : Exec E α) >>= f) = f a := rfl
theorem Exec.ofRes_inj {a b : Res E α} (h : (Exec.ofRes a : Exec E α) = Exec.ofRes b) : a = b := by
  have : some a = some b := h
  simpa using this

@[simp] theorem Sat_ofRes_ok {a : α} {ok : α → Prop} {er} :
    Sat (E := E) (Exec.ofRes (.ok a)) ok er ↔ ok a := Iff.rfl
@[simp] theorem Sat_ofRes_error {e} {ok : α → Prop} {er} :
    Sat (E := E) (Exec.ofRes (.error e)) ok er ↔ er e := Iff.rfl
@[simp] theorem Sat_pure {a : α} {ok : α → Prop} {er} :
    Sat (E := E) (Pure.pure a) ok er ↔ ok a := Iff.rfl

end PPP
