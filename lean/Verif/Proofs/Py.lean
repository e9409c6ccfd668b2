import Verif.Py
import Mathlib.Data.List.Basic
import Mathlib.Data.List.Range
import Mathlib.Tactic.Common

/-! Lemmas about the Python primitives of `Verif/Py.lean`. -/

namespace Vdaf
universe u v w
variable {α : Type u} {β : Type v} {γ : Type w}

@[simp] theorem Except.ok_bind' {ε α β : Type _} (a : α) (f : α → Except ε β) :
    (Except.ok a >>= f) = f a := rfl
@[simp] theorem Except.error_bind' {ε α β : Type _} (e : ε) (f : α → Except ε β) :
    ((Except.error e : Except ε α) >>= f) = Except.error e := rfl
@[simp] theorem Except.pure_eq' {ε α : Type _} (a : α) : (pure a : Except ε α) = Except.ok a := rfl

theorem Except.bind_eq_ok {ε α β : Type _} {x : Except ε α} {f : α → Except ε β} {b : β} :
    (x >>= f) = Except.ok b ↔ ∃ a, x = Except.ok a ∧ f a = Except.ok b := by
  cases x with
  | error e => simp
  | ok a => simp

@[simp] theorem pyAssert_true (m : String) : pyAssert true m = .ok () := rfl
theorem pyAssert_of {c : Bool} {m : String} (h : c = true) : pyAssert c m = .ok () := by
  subst h; rfl
theorem pyAssert_of' {c : Prop} [Decidable c] {m : String} (h : c) :
    pyAssert (decide c) m = .ok () := by simp [pyAssert, h]
@[simp] theorem pyAssert_eq_ok {c : Bool} {m : String} {u : Unit} :
    pyAssert c m = .ok u ↔ c = true := by
  cases c <;> simp [pyAssert]
@[simp] theorem raiseIf_eq_ok {c : Bool} {m : String} {u : Unit} :
    raiseIf c m = .ok u ↔ c = false := by
  cases c <;> simp [raiseIf]
theorem raiseIf_of_not {c : Prop} [Decidable c] {m : String} (h : ¬ c) :
    raiseIf (decide c) m = .ok () := by simp [raiseIf, h]
theorem raiseIf_of {c : Prop} [Decidable c] {m : String} (h : c) :
    raiseIf (decide c) m = .error (.value m) := by simp [raiseIf, h]

theorem getI_of_lt {l : List α} {i : Nat} (h : i < l.length) : getI l i = .ok l[i] := by
  simp [getI, h]
theorem getI_eq_ok {l : List α} {i : Nat} {x : α} : getI l i = .ok x ↔ l[i]? = some x := by
  unfold getI; cases h : l[i]? <;> simp
theorem getI_of_some {l : List α} {i : Nat} {x : α} (h : l[i]? = some x) : getI l i = .ok x :=
  getI_eq_ok.2 h
theorem getI_err {l : List α} {i : Nat} (h : l.length ≤ i) : getI l i = .error .index := by
  simp [getI, h]
theorem setI_of_lt {l : List α} {i : Nat} {x : α} (h : i < l.length) :
    setI l i x = .ok (l.set i x) := by simp [setI, h]
theorem setI_eq_ok {l l' : List α} {i : Nat} {x : α} :
    setI l i x = .ok l' ↔ i < l.length ∧ l' = l.set i x := by
  unfold setI; split <;> simp_all [eq_comm]

@[simp] theorem forFold_nil (b : β) (f : β → α → Res β) : forFold [] b f = .ok b := rfl
theorem forFold_cons (a : α) (l : List α) (b : β) (f : β → α → Res β) :
    forFold (a :: l) b f = (f b a >>= fun b' => forFold l b' f) := by
  simp only [forFold]; cases f b a <;> rfl

theorem forFold_append (l l' : List α) (b : β) (f : β → α → Res β) :
    forFold (l ++ l') b f = (forFold l b f >>= fun b' => forFold l' b' f) := by
  induction l generalizing b with
  | nil => simp
  | cons a l ih =>
    simp only [List.cons_append, forFold_cons]
    cases f b a <;> simp [ih]

theorem forFold_pure (l : List α) (b : β) (f : β → α → Res β) (g : β → α → β)
    (h : ∀ b, ∀ a ∈ l, f b a = .ok (g b a)) : forFold l b f = .ok (l.foldl g b) := by
  induction l generalizing b with
  | nil => rfl
  | cons a l ih =>
    rw [forFold_cons, h b a (by simp)]
    simp only [Except.ok_bind', List.foldl_cons]
    exact ih _ fun b a ha => h b a (by simp [ha])

theorem forFold_congr {l : List α} {b : β} {f g : β → α → Res β}
    (h : ∀ b, ∀ a ∈ l, f b a = g b a) : forFold l b f = forFold l b g := by
  induction l generalizing b with
  | nil => rfl
  | cons a l ih =>
    rw [forFold_cons, forFold_cons, h b a (by simp)]
    congr 1; funext b'
    exact ih fun b a ha => h b a (by simp [ha])

/-- Loop invariant rule for a loop over an arbitrary list. -/
theorem forFold_inv (l : List α) (b : β) (f : β → α → Res β) (P : Nat → β → Prop)
    (h0 : P 0 b)
    (hs : ∀ i (hi : i < l.length) b, P i b → ∃ b', f b l[i] = .ok b' ∧ P (i + 1) b') :
    ∃ b', forFold l b f = .ok b' ∧ P l.length b' := by
  induction l generalizing b P with
  | nil => exact ⟨b, rfl, h0⟩
  | cons a l ih =>
    obtain ⟨b1, h1, hP1⟩ := hs 0 (by simp) b h0
    simp only [List.getElem_cons_zero] at h1
    rw [forFold_cons, h1]
    obtain ⟨b2, h2, hP2⟩ := ih b1 (fun i b => P (i + 1) b) hP1
      (fun i hi b hb => by
        have := hs (i + 1) (by simpa using hi) b hb
        simpa using this)
    exact ⟨b2, h2, by simpa using hP2⟩

/-- Loop invariant rule for `for i in range(n)`. -/
theorem forFold_range (n : Nat) (b : β) (f : β → Nat → Res β) (P : Nat → β → Prop)
    (h0 : P 0 b)
    (hs : ∀ i, i < n → ∀ b, P i b → ∃ b', f b i = .ok b' ∧ P (i + 1) b') :
    ∃ b', forFold (List.range n) b f = .ok b' ∧ P n b' := by
  have := forFold_inv (List.range n) b f P h0 (fun i hi b hb => by
    simpa using hs i (by simpa using hi) b hb)
  simpa using this

/-- Loop invariant rule for `for i in range(s, s + n)`; the invariant is indexed by the
loop variable. -/
theorem forFold_range' (s n : Nat) (b : β) (f : β → Nat → Res β) (P : Nat → β → Prop)
    (h0 : P s b)
    (hs : ∀ i, s ≤ i → i < s + n → ∀ b, P i b → ∃ b', f b i = .ok b' ∧ P (i + 1) b') :
    ∃ b', forFold (List.range' s n) b f = .ok b' ∧ P (s + n) b' := by
  have := forFold_inv (List.range' s n) b f (fun i b => P (s + i) b) h0 (fun i hi b hb => by
    have hi' : i < n := by simpa using hi
    have := hs (s + i) (by omega) (by omega) b hb
    simpa [List.getElem_range', Nat.add_assoc] using this)
  simpa using this

theorem forFold_error_or_inv (l : List α) (b : β) (f : β → α → Res β) (P : β → Prop)
    (h0 : P b) (hs : ∀ a ∈ l, ∀ b b', P b → f b a = .ok b' → P b') :
    ∀ b', forFold l b f = .ok b' → P b' := by
  induction l generalizing b with
  | nil => intro b' h; cases h; exact h0
  | cons a l ih =>
    intro b' h
    rw [forFold_cons] at h
    obtain ⟨b1, h1, h2⟩ := Except.bind_eq_ok.1 h
    exact ih b1 (hs a (by simp) b b1 h0 h1) (fun a ha => hs a (by simp [ha])) b' h2

@[simp] theorem mapRes_nil (f : α → Res β) : mapRes f [] = .ok [] := rfl
theorem mapRes_cons (f : α → Res β) (a : α) (l : List α) :
    mapRes f (a :: l) = (f a >>= fun b => mapRes f l >>= fun bs => .ok (b :: bs)) := by
  simp only [mapRes]; cases f a with
  | error e => rfl
  | ok b => simp only [Except.ok_bind']; cases mapRes f l <;> rfl

theorem mapRes_pure (f : α → Res β) (g : α → β) (l : List α)
    (h : ∀ a ∈ l, f a = .ok (g a)) : mapRes f l = .ok (l.map g) := by
  induction l with
  | nil => rfl
  | cons a l ih =>
    rw [mapRes_cons, h a (by simp), ih fun a ha => h a (by simp [ha])]; rfl

theorem mapRes_ok_iff (f : α → Res β) (l : List α) (r : List β) :
    mapRes f l = .ok r ↔ List.Forall₂ (fun a b => f a = .ok b) l r := by
  induction l generalizing r with
  | nil =>
    simp only [mapRes_nil, Except.ok.injEq, List.forall₂_nil_left_iff]
    exact eq_comm
  | cons a l ih =>
    rw [mapRes_cons, Except.bind_eq_ok]
    constructor
    · rintro ⟨b, hb, h⟩
      obtain ⟨bs, hbs, h⟩ := Except.bind_eq_ok.1 h
      cases h
      exact List.Forall₂.cons hb ((ih bs).1 hbs)
    · intro h
      cases h with
      | cons hb hbs => exact ⟨_, hb, by rw [(ih _).2 hbs]; rfl⟩

theorem mapRes_length {f : α → Res β} {l : List α} {r : List β} (h : mapRes f l = .ok r) :
    r.length = l.length := ((mapRes_ok_iff f l r).1 h).length_eq.symm

theorem mapRes_getElem {f : α → Res β} {l : List α} {r : List β} (h : mapRes f l = .ok r)
    (i : Nat) (hi : i < l.length) (hi' : i < r.length) : f l[i] = .ok r[i] :=
  ((mapRes_ok_iff f l r).1 h).get hi hi'

theorem mapRes_ok_of (f : α → Res β) (l : List α) (h : ∀ a ∈ l, ∃ b, f a = .ok b) :
    ∃ r, mapRes f l = .ok r := by
  induction l with
  | nil => exact ⟨[], rfl⟩
  | cons a l ih =>
    obtain ⟨b, hb⟩ := h a (by simp)
    obtain ⟨r, hr⟩ := ih fun a ha => h a (by simp [ha])
    exact ⟨b :: r, by rw [mapRes_cons, hb, hr]; rfl⟩

theorem mapRes_append (f : α → Res β) (l l' : List α) :
    mapRes f (l ++ l') = (mapRes f l >>= fun a => mapRes f l' >>= fun b => .ok (a ++ b)) := by
  induction l with
  | nil => simp only [List.nil_append, mapRes_nil, Except.ok_bind']; cases mapRes f l' <;> rfl
  | cons a l ih =>
    simp only [List.cons_append, mapRes_cons, ih]
    cases f a with
    | error e => rfl
    | ok b =>
      simp only [Except.ok_bind']
      cases mapRes f l with
      | error e => rfl
      | ok bs =>
        simp only [Except.ok_bind']
        cases mapRes f l' <;> rfl

theorem mapRes_map (f : β → Res γ) (g : α → β) (l : List α) :
    mapRes f (l.map g) = mapRes (fun a => f (g a)) l := by
  induction l with
  | nil => rfl
  | cons a l ih => simp only [List.map_cons, mapRes_cons, ih]

theorem mapRes_congr {f g : α → Res β} {l : List α} (h : ∀ a ∈ l, f a = g a) :
    mapRes f l = mapRes g l := by
  induction l with
  | nil => rfl
  | cons a l ih =>
    rw [mapRes_cons, mapRes_cons, h a (by simp), ih fun a ha => h a (by simp [ha])]

/-- Multiplying/replacing every entry of a list in place is a `map`. -/
theorem forFold_update_all (u : List α) (f : α → α) :
    forFold (List.range u.length) u (fun u i => do
      let ui ← getI u i
      setI u i (f ui)) = .ok (u.map f) := by
  obtain ⟨b, hb, hP⟩ := forFold_range u.length u (fun u i => do
      let ui ← getI u i
      setI u i (f ui))
    (fun i b => b.length = u.length ∧ ∀ j, b[j]? = if j < i then (u[j]?).map f else u[j]?)
    (by simp) (by
      intro i hi b ⟨hl, hb⟩
      have hib : i < b.length := by omega
      rw [getI_of_lt hib]
      simp only [Except.ok_bind']
      rw [setI_of_lt hib]
      refine ⟨_, rfl, by simpa using hl, ?_⟩
      intro j
      rw [List.getElem?_set]
      have hbi : b[i]? = u[i]? := by simpa using hb i
      have : b[i] = u[i] := by
        rw [List.getElem?_eq_getElem hib, List.getElem?_eq_getElem hi] at hbi
        exact Option.some.inj hbi
      by_cases hij : i = j
      · subst hij; simp [hib, this, hi]
      · rw [if_neg hij, hb j]
        by_cases h1 : j < i
        · rw [if_pos h1, if_pos (by omega)]
        · rw [if_neg h1, if_neg (by omega)])
  rw [hb]
  congr 1
  apply List.ext_getElem?
  intro j
  rw [hP.2 j, List.getElem?_map]
  by_cases h : j < u.length
  · simp [h]
  · simp [h]

end Vdaf
