import Verif.Proofs.Fuel

/-!
# Termination: rejection sampling
-/

namespace Vdaf

/-- The XOF never raises the mark of a loop that was cut off. -/
structure Xof.NoFuel (X : Xof) : Prop where
  init : ∀ s d b, NF (X.init s d b)
  next : ∀ st n, NF (X.next st n)

theorem turbo_nf (prims : Prims) (fuel : ℕ) : (XofTurboShake128 prims fuel).NoFuel :=
  ⟨fun s d b => by unfold XofTurboShake128; dsimp only; nf, fun st n => NF.ok _⟩

theorem aes_nf (prims : Prims) (fuel : ℕ) : (XofFixedKeyAes128 prims fuel).NoFuel :=
  ⟨fun s d b => by unfold XofFixedKeyAes128; dsimp only; nf,
    fun st n => by unfold XofFixedKeyAes128; dsimp only; nf⟩

section
variable {F : Type} [PyField F]

theorem nextVecLoop_mono {X : Xof} (m n f g : ℕ) (hfg : f ≤ g) (st : X.State) (v : List F) :
    X.nextVecLoop F m n f st v = .error .fuel ∨ X.nextVecLoop F m n f st v = X.nextVecLoop F m n g st v := by
  induction f generalizing g st v with
  | zero =>
    by_cases h : v.length < n
    · left; rw [Xof.nextVecLoop, if_pos h]
    · right
      rw [Xof.nextVecLoop, if_neg h]
      cases g with
      | zero => rw [Xof.nextVecLoop, if_neg h]
      | succ g => rw [Xof.nextVecLoop, if_neg h]
  | succ f ih =>
    obtain ⟨g, rfl⟩ : ∃ k, g = k + 1 := ⟨g - 1, by omega⟩
    rw [Xof.nextVecLoop, Xof.nextVecLoop]
    by_cases h : v.length < n
    · rw [if_pos h, if_pos h]
      cases hx : X.next st (PyField.encSize F) with
      | error e => right; rfl
      | ok r =>
        obtain ⟨b, st'⟩ := r
        simp only [Except.ok_bind']
        split
        · cases ho : ofInt F _ with
          | error e => right; rfl
          | ok y =>
            simp only [Except.ok_bind']
            exact ih g (by omega) _ _
        · exact ih g (by omega) _ _
    · right; rw [if_neg h, if_neg h]

theorem nextVec_mono {X : Xof} (n f g : ℕ) (hfg : f ≤ g) (st : X.State) :
    X.nextVec F f st n = .error .fuel ∨ X.nextVec F f st n = X.nextVec F g st n := by
  unfold Xof.nextVec
  cases nextPowerOf2 (PyField.modulus F) with
  | error e => right; rfl
  | ok m =>
    simp only [Except.ok_bind']
    exact nextVecLoop_mono _ _ _ _ hfg _ _

/-- A family that does not change once it is not cut off any more terminates if it is not always cut off. -/
theorem Term.of_mono {α : Type} {r : ℕ → Res α} (h : ∀ f g, f ≤ g → r f = .error .fuel ∨ r f = r g)
    {n : ℕ} (hn : NF (r n)) : Term r := by
  have key : ∀ g, n ≤ g → r g = r n := fun g hg => by
    rcases h n g hg with h' | h'
    · exact absurd h' hn.ne
    · exact h'.symm
  refine ⟨r n, hn.ne, ⟨n, key⟩, fun f => ?_⟩
  rcases h f (max f n) (le_max_left _ _) with h' | h'
  · exact .inl h'
  · exact .inr (h'.trans (key _ (le_max_right _ _)))

theorem nextVecLoop_nf {X : Xof} (hX : X.NoFuel) (hF : Spec.SamplingEnds X F) (n : ℕ)
    (hm : nextPowerOf2 (PyField.modulus F) = .ok n) (length : ℕ) (st : X.State) (v : List F) :
    ∃ f, NF (X.nextVecLoop F (n - 1) length f st v) := by
  obtain ⟨d, hd⟩ : ∃ d, d = length - v.length := ⟨_, rfl⟩
  have hn : n = 2 ^ Nat.size (PyField.modulus F - 1) := by
    unfold nextPowerOf2 at hm
    split at hm
    · cases hm; rfl
    · cases hm
  induction d generalizing st v with
  | zero => exact ⟨0, by rw [Xof.nextVecLoop, if_neg (by omega)]; nf⟩
  | succ d ih =>
    have hlt : v.length < length := by omega
    -- read chunks until one is accepted
    have key : ∀ (k : ℕ) (st : X.State),
        ((∃ e, Spec.readAll X st (List.replicate k (PyField.encSize F)) = .error e) ∨
          ∃ cs st' c x, Spec.readAll X st (List.replicate k (PyField.encSize F)) = .ok (cs, st') ∧ c ∈ cs ∧
            Spec.sample F c = some x) → ∃ f, NF (X.nextVecLoop F (n - 1) length f st v) := by
      intro k
      induction k with
      | zero =>
        rintro st (⟨e, he⟩ | ⟨cs, st', c, x, h1, h2, -⟩)
        · cases he
        · cases h1; cases h2
      | succ k ihk =>
        intro st hst
        rw [List.replicate_succ] at hst
        cases hx : X.next st (PyField.encSize F) with
        | error e =>
          refine ⟨1, ?_⟩
          rw [Xof.nextVecLoop, if_pos hlt, hx]
          exact ⟨fun h => (hX.next st _).ne (by rw [hx]; cases h; rfl)⟩
        | ok r =>
          obtain ⟨b, st1⟩ := r
          by_cases hb : fromLeBytes b &&& (n - 1) < PyField.modulus F
          · -- accepted
            have ho : NF (ofInt F ((fromLeBytes b &&& (n - 1) : ℕ) : ℤ)) := NF.ofInt _
            cases hy : ofInt F ((fromLeBytes b &&& (n - 1) : ℕ) : ℤ) with
            | error e =>
              refine ⟨1, ?_⟩
              rw [Xof.nextVecLoop, if_pos hlt, hx]
              simp only [Except.ok_bind']
              rw [if_pos hb, hy]
              exact ⟨fun h => ho.ne (by rw [hy]; cases h; rfl)⟩
            | ok y =>
              obtain ⟨f, hf⟩ := ih st1 (v ++ [y]) (by rw [List.length_append, List.length_singleton]; omega)
              refine ⟨f + 1, ?_⟩
              rw [Xof.nextVecLoop, if_pos hlt, hx]
              simp only [Except.ok_bind']
              rw [if_pos hb, hy]
              exact hf
          · -- rejected
            have hs : Spec.sample F b = none := by
              unfold Spec.sample
              rw [hn, land_mask] at hb
              rw [if_neg hb]
            obtain ⟨f, hf⟩ := ihk st1 (by
              simp only [Spec.readAll, hx] at hst
              rcases hst with ⟨e, he⟩ | ⟨cs, st', c, x, h1, h2, h3⟩
              · left
                revert he
                cases Spec.readAll X st1 (List.replicate k (PyField.encSize F)) with
                | error e' => intro _; exact ⟨e', rfl⟩
                | ok r => rintro ⟨⟩
              · right
                revert h1
                cases Spec.readAll X st1 (List.replicate k (PyField.encSize F)) with
                | error e' => rintro ⟨⟩
                | ok r =>
                  intro h1
                  obtain ⟨cs', st''⟩ := r
                  cases h1
                  refine ⟨cs', _, c, x, rfl, ?_, h3⟩
                  rcases List.mem_cons.1 h2 with rfl | h2
                  · rw [hs] at h3; cases h3
                  · exact h2)
            refine ⟨f + 1, ?_⟩
            rw [Xof.nextVecLoop, if_pos hlt, hx]
            simp only [Except.ok_bind']
            rw [if_neg hb]
            exact hf
    obtain ⟨k, hk⟩ := hF st
    exact key k st hk

theorem term_nextVec {X : Xof} (hX : X.NoFuel) (hF : Spec.SamplingEnds X F) (st : X.State) (n : ℕ) :
    Term fun f => X.nextVec F f st n := by
  cases hm : nextPowerOf2 (PyField.modulus F) with
  | error e =>
    have h : NF (nextPowerOf2 (PyField.modulus F)) := NF.nextPowerOf2 _
    rw [hm] at h
    have : (fun f => X.nextVec F f st n) = fun _ => .error e := by
      funext f
      unfold Xof.nextVec
      rw [hm]
      rfl
    rw [this]
    exact Term.const ⟨fun h' => h.ne (by cases h'; rfl)⟩
  | ok m =>
    obtain ⟨f, hf⟩ := nextVecLoop_nf hX hF m hm n st []
    refine Term.of_mono (fun f g hfg => nextVec_mono n f g hfg st) (n := f) ?_
    unfold Xof.nextVec
    rw [hm]
    exact hf

end
end Vdaf
