import Verif.Proofs.Py
import Verif.Proofs.Ntt

/-! A small program logic for computations in `Res`: `Good E r Q` says that `r` returns a value
with `Q`, or raises an exception with `E`. -/

namespace Vdaf

/-- `r` returns a value satisfying `Q` or raises an exception satisfying `E`. -/
def Good {α : Type} (E : Err → Prop) (r : Res α) (Q : α → Prop) : Prop :=
  match r with
  | .ok a => Q a
  | .error e => E e

variable {α β : Type} {E : Err → Prop}

theorem Good.ok {a : α} {Q : α → Prop} (h : Q a) : Good E (.ok a) Q := h
theorem Good.pure {a : α} {Q : α → Prop} (h : Q a) : Good E (Pure.pure a) Q := h
theorem Good.error {e : Err} {Q : α → Prop} (h : E e) : Good E (.error e : Res α) Q := h

theorem Good.of_eq {r : Res α} {a : α} {Q : α → Prop} (hr : r = .ok a) (h : Q a) : Good E r Q := by
  subst hr; exact h

theorem Good.bind {r : Res α} {f : α → Res β} {Q : α → Prop} {R : β → Prop} (h : Good E r Q)
    (hf : ∀ a, r = .ok a → Q a → Good E (f a) R) : Good E (r >>= f) R := by
  cases r with
  | error e => exact h
  | ok a => exact hf a rfl h

theorem Good.mono {r : Res α} {Q R : α → Prop} (h : Good E r Q) (hR : ∀ a, r = .ok a → Q a → R a) :
    Good E r R := by
  cases r with
  | error e => exact h
  | ok a => exact hR a rfl h

theorem Good.weaken {E' : Err → Prop} {r : Res α} {Q : α → Prop} (h : Good E r Q)
    (hE : ∀ e, E e → E' e) : Good E' r Q := by
  cases r with
  | error e => exact hE e h
  | ok a => exact h

theorem Good.elim {r : Res α} {Q : α → Prop} (h : Good E r Q) {a : α} (hr : r = .ok a) : Q a := by
  subst hr; exact h

theorem Good.cases {r : Res α} {Q : α → Prop} (h : Good E r Q) :
    (∃ a, r = .ok a ∧ Q a) ∨ ∃ e, r = .error e ∧ E e := by
  cases r with
  | error e => exact .inr ⟨e, rfl, h⟩
  | ok a => exact .inl ⟨a, rfl, h⟩

theorem Good.forFold (l : List α) (b : β) (f : β → α → Res β) (Inv : Nat → β → Prop)
    (h0 : Inv 0 b)
    (hs : ∀ i (hi : i < l.length) b, Inv i b → Good E (f b l[i]) (Inv (i + 1))) :
    Good E (Vdaf.forFold l b f) (Inv l.length) := by
  induction l generalizing b Inv with
  | nil => exact h0
  | cons a l ih =>
    rw [forFold_cons]
    refine Good.bind (hs 0 (by simp) b h0) fun b' _ hb' => ?_
    exact ih b' (fun i => Inv (i + 1)) hb' fun i hi b'' h =>
      hs (i + 1) (by simpa using hi) b'' h

theorem Good.forFold_range (n : Nat) (b : β) (f : β → Nat → Res β) (Inv : Nat → β → Prop)
    (h0 : Inv 0 b) (hs : ∀ i < n, ∀ b, Inv i b → Good E (f b i) (Inv (i + 1))) :
    Good E (Vdaf.forFold (List.range n) b f) (Inv n) := by
  have := Good.forFold (E := E) (List.range n) b f Inv h0 fun i hi b hb => by
    simpa using hs i (by simpa using hi) b hb
  simpa using this

theorem Good.mapRes (l : List α) (f : α → Res β) (Q : α → β → Prop)
    (h : ∀ a ∈ l, Good E (f a) (Q a)) :
    Good E (Vdaf.mapRes f l) fun r => List.Forall₂ (fun a b => f a = .ok b ∧ Q a b) l r := by
  induction l with
  | nil => exact .nil
  | cons a l ih =>
    rw [mapRes_cons]
    refine Good.bind (h a (by simp)) fun b hb hq => ?_
    refine Good.bind (ih fun a ha => h a (by simp [ha])) fun bs _ hbs => ?_
    exact Good.ok (.cons ⟨hb, hq⟩ hbs)

theorem forall₂_range_tab [Inhabited β] {n : Nat} {R : Nat → β → Prop} {r : List β}
    (h : List.Forall₂ R (List.range n) r) : ∃ g : Nat → β, r = tab n g ∧ ∀ i < n, R i (g i) := by
  have hl : r.length = n := by rw [← h.length_eq]; simp
  refine ⟨fun i => r.getD i default, ?_, fun i hi => ?_⟩
  · apply List.ext_getElem
    · simp [hl]
    · intro i h1 h2
      rw [tab_getElem]; simp [h1]
  · have := h.get (i := i) (by simpa using hi) (by omega)
    simpa [hl, hi] using this

theorem Good.mapRes_range [Inhabited β] (n : Nat) (f : Nat → Res β) (Q : Nat → β → Prop)
    (h : ∀ i < n, Good E (f i) (Q i)) :
    Good E (Vdaf.mapRes f (List.range n)) fun r =>
      ∃ g : Nat → β, r = tab n g ∧ ∀ i < n, f i = .ok (g i) ∧ Q i (g i) :=
  (Good.mapRes (List.range n) f Q fun i hi => h i (by simpa using hi)).mono
    fun _ _ hr => forall₂_range_tab hr

theorem mapRes_range_tab {n : Nat} {f : Nat → Res β} {g : Nat → β}
    (h : ∀ i < n, f i = .ok (g i)) : Vdaf.mapRes f (List.range n) = .ok (tab n g) :=
  mapRes_pure _ _ _ fun i hi => h i (by simpa using hi)

/-- From a successful loop: the sequence of intermediate values. -/
theorem mapRes_range_ok [Inhabited β] {n : Nat} {f : Nat → Res β} {r : List β}
    (h : Vdaf.mapRes f (List.range n) = .ok r) : ∃ g : Nat → β, r = tab n g ∧ ∀ i < n, f i = .ok (g i) :=
  forall₂_range_tab ((mapRes_ok_iff f _ r).1 h)

theorem forall₂_perm {α β : Type} {R : α → β → Prop} {l l' : List α} (hp : l.Perm l') {r : List β}
    (h : List.Forall₂ R l r) : ∃ r', List.Forall₂ R l' r' ∧ (l.zip r).Perm (l'.zip r') := by
  induction hp generalizing r with
  | nil => cases h; exact ⟨[], .nil, .nil⟩
  | cons a _ ih =>
    cases h with
    | cons h1 h2 =>
      obtain ⟨r', h3, h4⟩ := ih h2
      exact ⟨_ :: r', .cons h1 h3, h4.cons _⟩
  | swap a b l =>
    cases h with
    | cons h1 h2 =>
      cases h2 with
      | cons h2 h3 => exact ⟨_, .cons h2 (.cons h1 h3), .swap _ _ _⟩
  | trans _ _ ih1 ih2 =>
    obtain ⟨r1, h1, p1⟩ := ih1 h
    obtain ⟨r2, h2, p2⟩ := ih2 h1
    exact ⟨r2, h2, p1.trans p2⟩

end Vdaf
