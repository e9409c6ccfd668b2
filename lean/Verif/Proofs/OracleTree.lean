import Verif.Spec.PingPongOpen
import Verif.Proofs.Py

/-! Computations that evaluate TurboSHAKE128 (with domain byte 1) and AES-128 a bounded number of times. -/

namespace Vdaf

/-- A computation with oracles -/
inductive OTree (α : Type) where
  | ret (a : α)
  | shake (m : Bytes) (k : (ℕ → UInt8) → OTree α)
  | aes (key block : Bytes) (k : Bytes → OTree α)

namespace OTree
variable {α β : Type}

/-- The result -/
def eval (p : Prims) : OTree α → α
  | ret a => a
  | shake m k => (k (p.turboShake m 1)).eval p
  | aes key block k => (k (p.aes key block)).eval p

/-- The number of evaluations is at most `n`. -/
def within : OTree α → ℕ → Prop
  | ret _, _ => True
  | shake _ _, 0 => False
  | shake _ k, n + 1 => ∀ s, (k s).within n
  | aes _ _ _, 0 => False
  | aes _ _ k, n + 1 => ∀ b, (k b).within n

def bind (f : α → OTree β) : OTree α → OTree β
  | ret a => f a
  | shake m k => shake m fun s => (k s).bind f
  | aes key block k => aes key block fun b => (k b).bind f

theorem eval_bind (p : Prims) (f : α → OTree β) : ∀ T : OTree α, (T.bind f).eval p = (f (T.eval p)).eval p
  | ret _ => rfl
  | shake _ k => eval_bind p f (k _)
  | aes _ _ k => eval_bind p f (k _)

theorem within_mono : ∀ {T : OTree α} {n n' : ℕ}, n ≤ n' → T.within n → T.within n'
  | ret _, _, _, _, _ => trivial
  | shake _ _, 0, _, _, h => h.elim
  | shake _ _, n + 1, 0, hn, _ => by omega
  | shake _ _, n + 1, n' + 1, hn, h => fun s => within_mono (by omega) (h s)
  | aes _ _ _, 0, _, _, h => h.elim
  | aes _ _ _, n + 1, 0, hn, _ => by omega
  | aes _ _ _, n + 1, n' + 1, hn, h => fun s => within_mono (by omega) (h s)

theorem within_bind {f : α → OTree β} {d : ℕ} (hf : ∀ a, (f a).within d) : ∀ {T : OTree α} {n : ℕ}, T.within n →
    (T.bind f).within (n + d)
  | ret a, _, _ => within_mono (by omega) (hf a)
  | shake _ _, 0, h => h.elim
  | shake _ _, n + 1, h => by
    rw [Nat.add_right_comm]
    exact fun s => within_bind hf (h s)
  | aes _ _ _, 0, h => h.elim
  | aes _ _ _, n + 1, h => by
    rw [Nat.add_right_comm]
    exact fun s => within_bind hf (h s)

end OTree

/-- For the primitives in `A`, the value of `f` is obtained by at most `c` evaluations. -/
def Uses {α : Type} (A : Set Prims) (c : ℕ) (f : Prims → α) : Prop :=
  ∃ T : OTree α, T.within c ∧ ∀ p ∈ A, T.eval p = f p

namespace Uses
variable {α β : Type} {A : Set Prims} {c d : ℕ} {f f' : Prims → α}

theorem const (a : α) : Uses A c fun _ => a := ⟨.ret a, trivial, fun _ _ => rfl⟩

theorem congr (h : Uses A c f) (hf : ∀ p ∈ A, f p = f' p) : Uses A c f' := by
  obtain ⟨T, h1, h2⟩ := h
  exact ⟨T, h1, fun p hp => (h2 p hp).trans (hf p hp)⟩

theorem mono (h : Uses A c f) (hc : c ≤ d) : Uses A d f := by
  obtain ⟨T, h1, h2⟩ := h
  exact ⟨T, OTree.within_mono hc h1, h2⟩

theorem comp {g : α → Prims → β} (h : Uses A c f) (hg : ∀ a, Uses A d (g a)) : Uses A (c + d) fun p => g (f p) p := by
  obtain ⟨T, h1, h2⟩ := h
  choose t ht using hg
  refine ⟨T.bind t, OTree.within_bind (fun a => (ht a).1) h1, fun p hp => ?_⟩
  rw [OTree.eval_bind, h2 p hp, (ht _).2 p hp]

theorem map (g : α → β) (h : Uses A c f) : Uses A c fun p => g (f p) := (h.comp fun a => const (c := 0) (g a)).mono le_rfl

theorem bind {f : Prims → Res α} {g : α → Prims → Res β} (h : Uses A c f) (hg : ∀ a, Uses A d (g a)) :
    Uses A (c + d) fun p => f p >>= fun a => g a p :=
  h.comp (g := fun r p => r >>= fun a => g a p) fun r => match r with
    | .ok a => hg a
    | .error e => const (Except.error e)

theorem bindConst {f : Prims → Res α} {g : α → Prims → Res β} (r : Res α) (hf : ∀ p ∈ A, f p = r)
    (hg : ∀ a, r = .ok a → Uses A c (g a)) : Uses A c fun p => f p >>= fun a => g a p := by
  cases r with
  | ok a => exact (hg a rfl).congr fun p hp => by rw [hf p hp]; rfl
  | error e => exact (const (Except.error e)).congr fun p hp => by rw [hf p hp]; rfl

theorem shake (m : Bytes) (g : (ℕ → UInt8) → α) : Uses A 1 fun p => g (p.turboShake m 1) :=
  ⟨.shake m fun s => .ret (g s), fun _ => trivial, fun _ _ => rfl⟩

theorem aes (key block : Bytes) (g : Bytes → α) : Uses A 1 fun p => g (p.aes key block) :=
  ⟨.aes key block fun s => .ret (g s), fun _ => trivial, fun _ _ => rfl⟩

private theorem fold_cons {σ ι : Type} (g : σ → ι → Res σ) (i : ι) (l : List ι) (s : σ) :
    forFold (i :: l) s g = g s i >>= fun s => forFold l s g := by
  conv_lhs => unfold forFold
  cases g s i <;> rfl

private theorem map_cons {ι : Type} (g : ι → Res α) (i : ι) (l : List ι) :
    Vdaf.mapRes g (i :: l) = (do
      let a ← g i
      let as ← Vdaf.mapRes g l
      return a :: as) := by
  conv_lhs => unfold Vdaf.mapRes
  cases g i with
  | error e => rfl
  | ok a =>
    simp only [Except.ok_bind']
    cases Vdaf.mapRes g l <;> rfl

/-- A loop -/
theorem fold {σ ι : Type} {g : σ → ι → Prims → Res σ} (hg : ∀ s i, Uses A c (g s i)) : ∀ (l : List ι) (s : σ),
    Uses A (l.length * c) fun p => forFold l s fun s i => g s i p
  | [], s => const (Except.ok s)
  | i :: l, s => by
    rw [List.length_cons, Nat.add_mul, Nat.one_mul, Nat.add_comm]
    refine ((hg s i).bind fun s => fold hg l s).congr fun p _ => ?_
    rw [fold_cons]

theorem mapRes {ι : Type} {g : ι → Prims → Res α} : ∀ (l : List ι), (∀ i ∈ l, Uses A c (g i)) →
    Uses A (l.length * c) fun p => Vdaf.mapRes (fun i => g i p) l
  | [], _ => const (Except.ok [])
  | i :: l, hg => by
    rw [List.length_cons, Nat.add_mul, Nat.one_mul, Nat.add_comm]
    refine ((hg i List.mem_cons_self).bind (d := l.length * c) (g := fun a p => do
      let as ← Vdaf.mapRes (fun i => g i p) l
      return a :: as) fun a => ?_).congr fun p _ => ?_
    · exact (mapRes l fun j hj => hg j (List.mem_cons_of_mem _ hj)).map fun r => r >>= fun as => pure (a :: as)
    · rw [map_cons]

end Uses
end Vdaf
