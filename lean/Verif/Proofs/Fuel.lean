import Verif.Spec.Fuel
import Verif.Proofs.Py
import Verif.Proofs.Xof

/-!
# Termination: composition
-/

namespace Vdaf

/-- The computation is not cut off. -/
structure NF {α : Type} (r : Res α) : Prop where
  ne : r ≠ .error .fuel

abbrev Term {α : Type} (r : ℕ → Res α) : Prop := Spec.Halts r

/-- one step of a proof that a computation is not cut off -/
syntax "nf_step" : tactic
/-- one step of a proof of termination -/
syntax "tm_step" : tactic
macro "nf" : tactic => `(tactic| repeat' (first | nf_step | fail))
macro "tm" : tactic => `(tactic| repeat' (first | tm_step | fail))

section
variable {α β γ : Type}

theorem NF.ok (a : α) : NF (.ok a : Res α) := ⟨by simp⟩
theorem NF.pure (a : α) : NF (Pure.pure a : Res α) := ⟨by simp [Pure.pure, Except.pure]⟩

theorem NF.bind {r : Res α} {k : α → Res β} (h : NF r) (hk : ∀ a, r = .ok a → NF (k a)) :
    NF (r >>= k) := by
  cases hr : r with
  | ok a => exact hk a hr
  | error e =>
    refine ⟨fun h' => ?_⟩
    rw [Except.error_bind'] at h'
    exact h.ne (by rw [hr]; cases h'; rfl)

theorem NF.bind' {r : Res α} {k : α → Res β} (h : NF r) (hk : ∀ a, NF (k a)) : NF (r >>= k) :=
  NF.bind h fun a _ => hk a

theorem NF.error {e : Err} (h : e ≠ .fuel) : NF (.error e : Res α) := by
  exact ⟨fun h' => by cases h'; exact h rfl⟩

theorem NF.ite {c : Prop} [Decidable c] {a b : Res α} (ha : NF a) (hb : NF b) :
    NF (if c then a else b) := by split <;> assumption

theorem NF.forFold {l : List α} {b : β} {f : β → α → Res β} (h : ∀ b a, NF (f b a)) :
    NF (forFold l b f) := by
  induction l generalizing b with
  | nil => exact NF.ok _
  | cons a t ih =>
    unfold Vdaf.forFold
    split
    · exact ih
    · next e he => exact ⟨fun h' => by cases h'; exact (h _ _).ne he⟩

theorem NF.mapRes {l : List α} {f : α → Res β} (h : ∀ a, NF (f a)) : NF (mapRes f l) := by
  induction l with
  | nil => exact NF.ok _
  | cons a t ih =>
    unfold Vdaf.mapRes
    split
    · split
      · exact NF.ok _
      · next e he => exact ⟨fun h' => by cases h'; exact ih.ne he⟩
    · next e he => exact ⟨fun h' => by cases h'; exact (h _).ne he⟩

theorem NF.getI (l : List α) (i : ℕ) : NF (getI l i) := by
  unfold Vdaf.getI; split <;> exact ⟨by simp⟩
theorem NF.setI (l : List α) (i : ℕ) (x : α) : NF (setI l i x) := by
  unfold Vdaf.setI; split <;> exact ⟨by simp⟩
theorem NF.raiseIf (c : Bool) (s : String) : NF (raiseIf c s) := by
  unfold Vdaf.raiseIf; split <;> exact ⟨by simp⟩
theorem NF.pyAssert (c : Bool) (s : String) : NF (pyAssert c s) := by
  unfold Vdaf.pyAssert; split <;> exact ⟨by simp⟩

/-! ### Families -/

theorem Term.const {r : Res α} (h : NF r) : Term fun _ => r :=
  ⟨r, h.ne, ⟨0, fun _ _ => rfl⟩, fun _ => .inr rfl⟩

theorem Term.bind {r : ℕ → Res α} {k : ℕ → α → Res β} (h : Term r) (hk : ∀ a, Term fun f => k f a) :
    Term fun f => r f >>= k f := by
  obtain ⟨v, hv, ⟨n, hn⟩, hm⟩ := h
  cases hv' : v with
  | error e =>
    subst hv'
    refine ⟨.error e, by simpa using hv, ⟨n, fun f hf => ?_⟩, fun f => ?_⟩
    · show r f >>= k f = _; rw [hn f hf]; rfl
    · show r f >>= k f = _ ∨ r f >>= k f = _
      rcases hm f with h | h <;> rw [h]
      · exact .inl rfl
      · exact .inr rfl
  | ok a =>
    subst hv'
    obtain ⟨w, hw, ⟨m, hm'⟩, hw'⟩ := hk a
    refine ⟨w, hw, ⟨max n m, fun f hf => ?_⟩, fun f => ?_⟩
    · show r f >>= k f = _
      rw [hn f ((le_max_left _ _).trans hf), Except.ok_bind']
      exact hm' f ((le_max_right _ _).trans hf)
    · show r f >>= k f = _ ∨ r f >>= k f = _
      rcases hm f with h | h <;> rw [h]
      · exact .inl rfl
      · exact hw' f

theorem Term.ite {c : Prop} {inst : ℕ → Decidable c} {a b : ℕ → Res α} (ha : Term a) (hb : Term b) :
    Term fun f => @_root_.ite _ c (inst f) (a f) (b f) := by
  by_cases h : c
  · simpa only [if_pos h] using ha
  · simpa only [if_neg h] using hb

theorem Term.forFold {l : List α} {b : β} {k : ℕ → β → α → Res β} (h : ∀ b a, Term fun f => k f b a) :
    Term fun f => forFold l b (k f) := by
  induction l generalizing b with
  | nil => exact Term.const (NF.ok _)
  | cons a t ih =>
    have : (fun f => Vdaf.forFold (a :: t) b (k f)) = fun f => k f b a >>= fun b => Vdaf.forFold t b (k f) := by
      funext f
      rw [forFold_cons]
    rw [this]
    exact Term.bind (h b a) fun b => ih

theorem Term.mapRes {l : List α} {k : ℕ → α → Res β} (h : ∀ a, Term fun f => k f a) :
    Term fun f => mapRes (k f) l := by
  induction l with
  | nil => exact Term.const (NF.ok _)
  | cons a t ih =>
    have : (fun f => Vdaf.mapRes (k f) (a :: t)) =
        fun f => k f a >>= fun b => Vdaf.mapRes (k f) t >>= fun bs => .ok (b :: bs) := by
      funext f
      rw [mapRes_cons]
    rw [this]
    exact Term.bind (h a) fun b => Term.bind ih fun bs => Term.const (NF.ok _)

end

macro_rules | `(tactic| nf_step) => `(tactic| split)
macro_rules | `(tactic| nf_step) => `(tactic| refine NF.mapRes ?_)
macro_rules | `(tactic| nf_step) => `(tactic| refine NF.forFold ?_)
macro_rules | `(tactic| nf_step) => `(tactic| refine NF.ite ?_ ?_)
macro_rules | `(tactic| nf_step) => `(tactic| refine NF.bind' ?_ ?_)
macro_rules | `(tactic| nf_step) => `(tactic| first
  | intro _ | with_reducible assumption | exact NF.ok _ | exact NF.pure _ | exact NF.getI _ _ | exact NF.setI _ _ _
  | exact NF.raiseIf _ _ | exact NF.pyAssert _ _ | exact NF.error (by intro h; cases h))

macro_rules | `(tactic| tm_step) => `(tactic| with_reducible refine Term.mapRes ?_)
macro_rules | `(tactic| tm_step) => `(tactic| with_reducible refine Term.forFold ?_)
macro_rules | `(tactic| tm_step) => `(tactic| refine Term.ite ?_ ?_)
macro_rules | `(tactic| tm_step) => `(tactic| with_reducible refine Term.bind ?_ ?_)
macro_rules | `(tactic| tm_step) => `(tactic| (with_reducible refine Term.const ?_; nf; done))
macro_rules | `(tactic| tm_step) => `(tactic| first
  | refine Prod.forall.2 ?_ | intro _ | with_reducible assumption | dsimp only)

/-! ### Computations without rejection sampling -/

theorem NF.toLeBytes (n : ℤ) (l : ℕ) : NF (toLeBytes n l) := by unfold Vdaf.toLeBytes; nf
theorem NF.toBeBytes (n : ℤ) (l : ℕ) : NF (toBeBytes n l) := by unfold Vdaf.toBeBytes; nf
theorem NF.byte (n : ℕ) : NF (byte n) := by unfold Vdaf.byte; nf
theorem NF.front {α : Type} (n : ℕ) (l : List α) : NF (front n l) := by unfold Vdaf.front; nf
macro_rules | `(tactic| nf_step) => `(tactic| first
  | exact NF.toLeBytes _ _ | exact NF.toBeBytes _ _ | exact NF.byte _ | exact NF.front _ _)
theorem NF.assertPowerOf2 (n : ℕ) : NF (assertPowerOf2 n) := by unfold Vdaf.assertPowerOf2; nf
theorem NF.nextPowerOf2 (n : ℕ) : NF (nextPowerOf2 n) := by unfold Vdaf.nextPowerOf2; nf
theorem NF.bitrev (k n : ℕ) : NF (bitrev k n) := by unfold Vdaf.bitrev; nf
theorem NF.formatDst (a b c : ℕ) : NF (formatDst a b c) := by unfold Vdaf.formatDst; nf
macro_rules | `(tactic| nf_step) => `(tactic| first
  | exact NF.assertPowerOf2 _ | exact NF.nextPowerOf2 _ | exact NF.bitrev _ _ | exact NF.formatDst _ _ _)
theorem NF.domainSeparationTag (a b : ℕ) (c : Bytes) : NF (domainSeparationTag a b c) := by
  unfold Vdaf.domainSeparationTag; nf
macro_rules | `(tactic| nf_step) => `(tactic| exact NF.domainSeparationTag _ _ _)

section
variable {F : Type} [PyField F]
theorem NF.vecAdd {F : Type} [Add F] (a b : List F) : NF (vecAdd a b) := by unfold Vdaf.vecAdd; nf
theorem NF.vecSub {F : Type} [Sub F] (a b : List F) : NF (vecSub a b) := by unfold Vdaf.vecSub; nf
theorem NF.ofInt (n : ℤ) : NF (ofInt F n) := by unfold Vdaf.ofInt; nf
theorem NF.encodeVec (v : List F) : NF (encodeVec v) := by
  unfold Vdaf.encodeVec
  refine NF.forFold fun b a => ?_
  split
  · nf
  · next e he => exact ⟨fun h => by cases h; exact (NF.toLeBytes _ _).ne he⟩
end
macro_rules | `(tactic| nf_step) => `(tactic| first
  | exact NF.vecAdd _ _ | exact NF.vecSub _ _ | exact NF.ofInt _ | exact NF.encodeVec _)

end Vdaf
