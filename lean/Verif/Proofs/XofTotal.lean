import Verif.Proofs.Hoare
import Verif.Proofs.Xof

/-! The XOFs raise nothing but `fuel` when used within their limits. -/

set_option linter.unusedSectionVars false

namespace Vdaf

/-- An XOF whose constructor accepts every seed of the right size, and of which at least `B`
bytes can then be read. -/
def Xof.Total (X : Xof) (B : ℕ) : Prop :=
  ∃ I : ℕ → X.State → Prop,
    (∀ seed dst binder : Bytes, seed.length = X.seedSize → dst.length < 2 ^ 16 →
      ∃ st, X.init seed dst binder = .ok st ∧ I B st) ∧
    ∀ st b n, I b st → n ≤ b → ∃ out st', X.next st n = .ok (out, st') ∧ out.length = n ∧ I (b - n) st'

theorem turbo_total (P : Prims) (fuel B : ℕ) : (XofTurboShake128 P fuel).Total B := by
  refine ⟨fun _ _ => True, fun seed dst binder hs hd => ?_, fun st b n _ _ => ?_⟩
  · rw [turbo_init, if_pos hd, if_pos (by rw [hs]; show 32 < 2 ^ 8; decide)]
    exact ⟨_, rfl, trivial⟩
  · exact ⟨_, _, rfl, by simp, trivial⟩

theorem aes_total (P : Prims) (fuel B : ℕ) (hB : B < 16 * 2 ^ 128) :
    (XofFixedKeyAes128 P fuel).Total B := by
  refine ⟨fun b st => st.seed.length = 16 ∧ st.lengthConsumed + b ≤ B,
    fun seed dst binder hs hd => ?_, fun st b n hI hn => ?_⟩
  · rw [aes_init P fuel seed dst binder hs hd]
    exact ⟨_, rfl, hs, by simp⟩
  · obtain ⟨pos, key, seed⟩ := st
    obtain ⟨h1, h2⟩ := hI
    dsimp only at h1 h2
    rw [aes_next P fuel key seed h1 pos n (by omega)]
    exact ⟨_, _, rfl, by simp, h1, by dsimp only; omega⟩

section
variable {F : Type} [PyField F]

theorem nextVecLoop_good {X : Xof} {I : ℕ → X.State → Prop}
    (hn : ∀ st b n, I b st → n ≤ b →
      ∃ out st', X.next st n = .ok (out, st') ∧ out.length = n ∧ I (b - n) st')
    (m length fuel B : ℕ) (st : X.State) (vec : List F) (hI : I B st)
    (hB : fuel * PyField.encSize F ≤ B) (hv : vec.length ≤ length) :
    Good (fun e => e = .fuel) (X.nextVecLoop F m length fuel st vec)
      fun r => r.1.length = length := by
  induction fuel generalizing st vec B with
  | zero =>
    rw [Xof.nextVecLoop]
    split
    · exact Good.error rfl
    · exact Good.ok (by dsimp only; omega)
  | succ fuel ih =>
    rw [Xof.nextVecLoop]
    split
    · next hlt =>
      obtain ⟨b, st', hb, -, hI'⟩ := hn st B (PyField.encSize F) hI (by
        rw [Nat.add_mul] at hB; omega)
      rw [hb]
      simp only [Except.ok_bind']
      have hB' : fuel * PyField.encSize F ≤ B - PyField.encSize F := by
        rw [Nat.add_mul] at hB; omega
      split
      · rename_i hx
        rw [ofInt_nat hx]
        exact ih _ st' _ hI' hB' (by simp; omega)
      · exact ih _ st' _ hI' hB' hv
    · exact Good.ok (by dsimp only; omega)

theorem expandIntoVec_good {X : Xof} {B : ℕ} (hX : X.Total B) (hB : X.fuel * PyField.encSize F ≤ B)
    {seed dst binder : Bytes} (hs : seed.length = X.seedSize) (hd : dst.length < 2 ^ 16) (n : ℕ) :
    Good (fun e => e = .fuel) (X.expandIntoVec F seed dst binder n) fun v => v.length = n := by
  obtain ⟨I, hi, hn⟩ := hX
  obtain ⟨st, h1, h2⟩ := hi seed dst binder hs hd
  unfold Xof.expandIntoVec Xof.nextVec
  rw [h1, nextPowerOf2_of_pos (modulus_pos F)]
  simp only [Except.ok_bind']
  exact (nextVecLoop_good hn _ n _ B st [] h2 hB (by simp)).bind fun r _ hr => Good.ok hr

theorem deriveSeed_total {X : Xof} {B : ℕ} (hX : X.Total B) (hB : X.seedSize ≤ B)
    {seed dst binder : Bytes} (hs : seed.length = X.seedSize) (hd : dst.length < 2 ^ 16) :
    ∃ b, X.deriveSeed seed dst binder = .ok b ∧ b.length = X.seedSize := by
  obtain ⟨I, hi, hn⟩ := hX
  obtain ⟨st, h1, h2⟩ := hi seed dst binder hs hd
  obtain ⟨b, st', h3, h4, -⟩ := hn st B _ h2 hB
  refine ⟨b, ?_, h4⟩
  unfold Xof.deriveSeed
  rw [h1]; simp only [Except.ok_bind']; rw [h3]; rfl

/-- The output of `next_vec` has the requested length whenever it is returned. -/
theorem expandIntoVec_length {X : Xof} {seed dst binder : Bytes} {n : ℕ} {v : List F}
    (h : X.expandIntoVec F seed dst binder n = .ok v) : v.length = n := by
  unfold Xof.expandIntoVec at h
  obtain ⟨st, h1, h⟩ := Except.bind_eq_ok.1 h
  obtain ⟨⟨v', st'⟩, h2, h⟩ := Except.bind_eq_ok.1 h
  cases h
  obtain ⟨cs, -, -, -, h3, -⟩ := (nextVec_ok ..).1 h2
  exact h3

end
end Vdaf
