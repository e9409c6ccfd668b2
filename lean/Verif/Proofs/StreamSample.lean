import Verif.Proofs.PrivacyStream

/-! Rejection sampling from a stream of bytes as a function, and a bijection of streams that replaces the elements
sampled from some position on and leaves everything else as it is. -/

set_option linter.unusedSectionVars false

namespace Vdaf
open Spec (bytesAt sample)

section
variable {F : Type} [PyField F]

/-- Sampling `n` elements from the stream `s` from position `pos` on, with at most `fuel` chunks: the elements and the
position after them -/
def sampS (F : Type) [PyField F] (s : ℕ → UInt8) : ℕ → ℕ → ℕ → Res (List F × ℕ)
  | _, pos, 0 => .ok ([], pos)
  | 0, _, _ + 1 => .error .fuel
  | fuel + 1, pos, n + 1 =>
    match sample F (bytesAt s pos (PyField.encSize F)) with
    | none => sampS F s fuel (pos + PyField.encSize F) (n + 1)
    | some x => sampS F s fuel (pos + PyField.encSize F) n >>= fun r => .ok (x :: r.1, r.2)

theorem sampS_zero (s : ℕ → UInt8) (fuel pos : ℕ) : sampS F s fuel pos 0 = .ok ([], pos) := by
  cases fuel <;> rfl

theorem sampS_none {s : ℕ → UInt8} {fuel pos n : ℕ} (h : sample F (bytesAt s pos (PyField.encSize F)) = none) :
    sampS F s (fuel + 1) pos (n + 1) = sampS F s fuel (pos + PyField.encSize F) (n + 1) := by
  simp only [sampS, h]

theorem sampS_some {s : ℕ → UInt8} {fuel pos n : ℕ} {x : F} (h : sample F (bytesAt s pos (PyField.encSize F)) = some x) :
    sampS F s (fuel + 1) pos (n + 1) =
      (sampS F s fuel (pos + PyField.encSize F) n >>= fun r => .ok (x :: r.1, r.2)) := by
  simp only [sampS, h]

theorem sampS_fuel {s : ℕ → UInt8} {fuel pos n : ℕ} {e : Err} (h : sampS F s fuel pos n = .error e) : e = .fuel := by
  induction fuel generalizing pos n with
  | zero =>
    cases n with
    | zero => cases h
    | succ n => exact (Except.error.inj h).symm
  | succ fuel ih =>
    cases n with
    | zero => cases h
    | succ n =>
      cases hx : sample F (bytesAt s pos (PyField.encSize F)) with
      | none => rw [sampS_none hx] at h; exact ih h
      | some x =>
        rw [sampS_some hx] at h
        cases hr : sampS F s fuel (pos + PyField.encSize F) n with
        | ok r => rw [hr] at h; cases h
        | error e' => rw [hr] at h; cases h; exact ih hr

theorem sampS_ok {s : ℕ → UInt8} {fuel pos n : ℕ} {v : List F} {p : ℕ} (h : sampS F s fuel pos n = .ok (v, p)) :
    v.length = n ∧ pos ≤ p ∧ p ≤ pos + fuel * PyField.encSize F := by
  induction fuel generalizing pos n v p with
  | zero =>
    cases n with
    | zero => cases h; exact ⟨rfl, le_rfl, by omega⟩
    | succ n => cases h
  | succ fuel ih =>
    rw [Nat.add_mul, one_mul]
    cases n with
    | zero => cases h; exact ⟨rfl, le_rfl, by omega⟩
    | succ n =>
      cases hx : sample F (bytesAt s pos (PyField.encSize F)) with
      | none =>
        rw [sampS_none hx] at h
        obtain ⟨h1, h2, h3⟩ := ih h
        exact ⟨h1, by omega, by omega⟩
      | some x =>
        rw [sampS_some hx, Except.bind_eq_ok] at h
        obtain ⟨⟨w, q⟩, h4, h5⟩ := h
        cases h5
        obtain ⟨h1, h2, h3⟩ := ih h4
        exact ⟨by simp [h1], by dsimp only; omega, by dsimp only; omega⟩

theorem bytesAt_agree {s s' : ℕ → UInt8} {pos n : ℕ} (h : ∀ i, pos ≤ i → i < pos + n → s i = s' i) :
    bytesAt s pos n = bytesAt s' pos n := by
  unfold bytesAt
  apply List.map_congr_left
  intro i hi
  exact h _ (by omega) (by have := List.mem_range.1 hi; omega)

theorem sampS_congr {s s' : ℕ → UInt8} {fuel pos n : ℕ}
    (h : ∀ i, pos ≤ i → i < pos + fuel * PyField.encSize F → s i = s' i) :
    sampS F s fuel pos n = sampS F s' fuel pos n := by
  induction fuel generalizing pos n with
  | zero => cases n <;> rfl
  | succ fuel ih =>
    rw [Nat.add_mul, one_mul] at h
    cases n with
    | zero => rfl
    | succ n =>
      have e1 : bytesAt s pos (PyField.encSize F) = bytesAt s' pos (PyField.encSize F) :=
        bytesAt_agree fun i h1 h2 => h i h1 (by omega)
      have e2 : ∀ n, sampS F s fuel (pos + PyField.encSize F) n = sampS F s' fuel (pos + PyField.encSize F) n :=
        fun n => ih fun i h1 h2 => h i (by omega) (by omega)
      simp only [sampS, e1, e2]

/-- If sampling succeeds, it depends only on the bytes that it consumes. -/
theorem sampS_local {s s' : ℕ → UInt8} {fuel pos n : ℕ} {v : List F} {p : ℕ} (h : sampS F s fuel pos n = .ok (v, p))
    (hs : ∀ i, pos ≤ i → i < p → s i = s' i) : sampS F s' fuel pos n = .ok (v, p) := by
  induction fuel generalizing pos n v with
  | zero =>
    cases n with
    | zero => exact h
    | succ n => cases h
  | succ fuel ih =>
    cases n with
    | zero => exact h
    | succ n =>
      cases hx : sample F (bytesAt s pos (PyField.encSize F)) with
      | none =>
        rw [sampS_none hx] at h
        have hp := (sampS_ok h).2.1
        have e1 : bytesAt s pos (PyField.encSize F) = bytesAt s' pos (PyField.encSize F) :=
          bytesAt_agree fun i h1 h2 => hs i h1 (by omega)
        rw [e1] at hx
        rw [sampS_none hx]
        exact ih h fun i h1 h2 => hs i (by omega) h2
      | some x =>
        rw [sampS_some hx, Except.bind_eq_ok] at h
        obtain ⟨⟨w, q⟩, h4, h5⟩ := h
        cases h5
        have hp := (sampS_ok h4).2.1
        have e1 : bytesAt s pos (PyField.encSize F) = bytesAt s' pos (PyField.encSize F) :=
          bytesAt_agree fun i h1 h2 => hs i h1 (by omega)
        rw [e1] at hx
        rw [sampS_some hx, ih h4 fun i h1 h2 => hs i (by omega) h2]
        rfl

/-! ### `next_vec` -/

theorem nextVecLoop_sampS {X : Xof} {s : ℕ → UInt8} {at_ : ℕ → X.State} {lim n : ℕ}
    (hs : Streams X s at_ lim) {m : ℕ} (hm : nextPowerOf2 (PyField.modulus F) = .ok m) (fuel pos : ℕ)
    (hlim : pos + fuel * PyField.encSize F ≤ lim) (vec : List F) (k : ℕ) (hv : vec.length + k = n) :
    X.nextVecLoop F (m - 1) n fuel (at_ pos) vec =
      (sampS F s fuel pos k >>= fun r => .ok (vec ++ r.1, at_ r.2)) := by
  induction fuel generalizing pos vec k with
  | zero =>
    unfold Xof.nextVecLoop
    cases k with
    | zero => rw [if_neg (by omega), sampS_zero]; simp
    | succ k => rw [if_pos (by omega)]; rfl
  | succ fuel ih =>
    unfold Xof.nextVecLoop
    cases k with
    | zero => rw [if_neg (by omega), sampS_zero]; simp
    | succ k =>
      rw [Nat.add_mul, one_mul] at hlim
      rw [if_pos (by omega), hs pos _ (by omega)]
      simp only [Except.ok_bind']
      have hsm := sample_eq (F := F) (bytesAt s pos (PyField.encSize F)) m hm
      split at hsm
      · next hx =>
        rw [if_pos hx, ofInt_nat hx]
        simp only [Except.ok_bind']
        rw [ih _ (by omega) _ k (by simp; omega), sampS_some hsm]
        cases sampS F s fuel (pos + PyField.encSize F) k with
        | error e => rfl
        | ok r => simp
      · next hx =>
        rw [if_neg hx, ih _ (by omega) _ (k + 1) hv, sampS_none hsm]

theorem nextVec_sampS {X : Xof} {s : ℕ → UInt8} {at_ : ℕ → X.State} {lim : ℕ} (hs : Streams X s at_ lim)
    (fuel pos n : ℕ) (hlim : pos + fuel * PyField.encSize F ≤ lim) :
    X.nextVec F fuel (at_ pos) n = (sampS F s fuel pos n >>= fun r => .ok (r.1, at_ r.2)) := by
  unfold Xof.nextVec
  rw [nextPowerOf2_of_pos (modulus_pos _)]
  simp only [Except.ok_bind']
  rw [nextVecLoop_sampS hs (nextPowerOf2_of_pos (modulus_pos _)) fuel pos hlim [] n (by simp)]
  simp

theorem turbo_sampS (prims : Prims) (f : ℕ) (m : Bytes) (fuel pos n : ℕ) :
    (XofTurboShake128 prims f).nextVec F fuel (⟨m, pos⟩ : TurboShakeState) n =
      (sampS F (prims.turboShake m 1) fuel pos n >>= fun r => .ok (r.1, (⟨m, r.2⟩ : TurboShakeState))) :=
  nextVec_sampS (turbo_streams prims f m _) fuel pos n le_rfl

theorem expand_sampS {prims : Prims} {fuel n : ℕ} {seed dst binder : Bytes}
    (hd : dst.length < 2 ^ 16) (hs : seed.length < 2 ^ 8) :
    (XofTurboShake128 prims fuel).expandIntoVec F seed dst binder n =
      (sampS F (Spec.turboStream prims seed dst binder) fuel 0 n >>= fun r => .ok r.1) := by
  have h0 : (XofTurboShake128 prims fuel).init seed dst binder =
      .ok (⟨turboInput seed dst binder, 0⟩ : TurboShakeState) := by rw [turbo_init, if_pos hd, if_pos hs]
  have h1 : (XofTurboShake128 prims fuel).expandIntoVec F seed dst binder n = (do
      let (vec, _) ← (XofTurboShake128 prims fuel).nextVec F fuel (⟨turboInput seed dst binder, 0⟩ : TurboShakeState) n
      return vec) := by
    unfold Xof.expandIntoVec
    rw [h0]
    rfl
  rw [h1, turbo_sampS]
  change (sampS F (Spec.turboStream prims seed dst binder) fuel 0 n >>= _) >>= _ = _
  cases sampS F (Spec.turboStream prims seed dst binder) fuel 0 n <;> rfl

/-! ### Replacing the elements -/

/-- The stream with the bytes of `c` from position `pos` on -/
def writeAt (s : ℕ → UInt8) (pos : ℕ) (c : Bytes) : ℕ → UInt8 := fun i =>
  if pos ≤ i ∧ i < pos + c.length then c.getD (i - pos) 0 else s i

theorem writeAt_ne {s : ℕ → UInt8} {pos : ℕ} {c : Bytes} {i : ℕ} (h : i < pos ∨ pos + c.length ≤ i) :
    writeAt s pos c i = s i := if_neg (by omega)

theorem bytesAt_writeAt (s : ℕ → UInt8) (pos : ℕ) (c : Bytes) : bytesAt (writeAt s pos c) pos c.length = c := by
  apply List.ext_getElem
  · simp [bytesAt]
  intro i h1 h2
  simp only [bytesAt, List.getElem_map, List.getElem_range]
  unfold writeAt
  rw [if_pos (by omega), Nat.add_sub_cancel_left, List.getD_eq_getElem?_getD, List.getElem?_eq_getElem h2]
  rfl

theorem writeAt_bytesAt (s : ℕ → UInt8) (pos n : ℕ) : writeAt s pos (bytesAt s pos n) = s := by
  funext i
  unfold writeAt
  split
  · next h =>
    simp only [bytesAt, List.length_map, List.length_range] at h
    unfold bytesAt
    rw [List.getD_eq_getElem?_getD, List.getElem?_eq_getElem (by simp; omega)]
    simp only [List.getElem_map, List.getElem_range, Option.getD_some]
    congr 1
    omega
  · rfl

theorem writeAt_writeAt {s : ℕ → UInt8} {pos : ℕ} {c c' : Bytes} (h : c.length = c'.length) :
    writeAt (writeAt s pos c) pos c' = writeAt s pos c' := by
  funext i
  unfold writeAt
  rw [h]
  split <;> rfl

theorem chunk_mem_iff {c : Bytes} {x : F} : [c] ∈ chunkSeqs 1 [x] ↔ c.length = PyField.encSize F ∧ sample F c = some x := by
  unfold chunkSeqs
  constructor
  · rintro ⟨-, h2, h3⟩
    refine ⟨h2 c (by simp), ?_⟩
    cases hc : sample F c with
    | none => rw [List.filterMap_cons_none hc] at h3; simp at h3
    | some y => rw [List.filterMap_cons_some hc] at h3; simpa using h3
  · rintro ⟨h1, h2⟩
    refine ⟨rfl, by simpa using h1, ?_⟩
    rw [List.filterMap_cons_some h2]
    simp

open Classical in
/-- A chunk that gives `y` instead of `x` -/
noncomputable def moveChunk (x y : F) (c : Bytes) : Bytes :=
  if h : [c] ∈ chunkSeqs 1 [x] then (swapSeqs 1 (v := [x]) (v' := [y]) rfl ⟨[c], h⟩).1.headD [] else c

theorem moveChunk_spec {x y : F} {c : Bytes} (h1 : c.length = PyField.encSize F) (h2 : sample F c = some x) :
    (moveChunk x y c).length = PyField.encSize F ∧ sample F (moveChunk x y c) = some y ∧
      moveChunk y x (moveChunk x y c) = c := by
  have hm : [c] ∈ chunkSeqs 1 [x] := chunk_mem_iff.2 ⟨h1, h2⟩
  set d := swapSeqs 1 (v := [x]) (v' := [y]) rfl ⟨[c], hm⟩ with hd
  have hdl := d.2.1
  obtain ⟨a, ha⟩ := List.length_eq_one_iff.1 hdl
  have e1 : moveChunk x y c = a := by
    unfold moveChunk
    rw [dif_pos hm, ← hd, ha]
    rfl
  have hma : [a] ∈ chunkSeqs 1 [y] := ha ▸ d.2
  obtain ⟨l1, l2⟩ := chunk_mem_iff.1 hma
  rw [e1]
  refine ⟨l1, l2, ?_⟩
  unfold moveChunk
  rw [dif_pos hma]
  have : (⟨[a], hma⟩ : chunkSeqs 1 [y]) = d := Subtype.ext ha.symm
  rw [this, hd, swapSeqs_swap]
  rfl

/-- The stream in which the elements sampled from position `pos` on are replaced by `ys` -/
noncomputable def reS (F : Type) [PyField F] : ℕ → ℕ → List F → (ℕ → UInt8) → (ℕ → UInt8)
  | 0, _, _, s => s
  | _ + 1, _, [], s => s
  | fuel + 1, pos, y :: ys, s =>
    match sample F (bytesAt s pos (PyField.encSize F)) with
    | none => reS F fuel (pos + PyField.encSize F) (y :: ys) s
    | some x => reS F fuel (pos + PyField.encSize F) ys
        (writeAt s pos (moveChunk x y (bytesAt s pos (PyField.encSize F))))

theorem bytesAt_len (s : ℕ → UInt8) (pos n : ℕ) : (bytesAt s pos n).length = n := by simp [bytesAt]

theorem reS_before {fuel pos : ℕ} {ys : List F} {s : ℕ → UInt8} {i : ℕ} (hi : i < pos) :
    reS F fuel pos ys s i = s i := by
  induction fuel generalizing pos ys s with
  | zero => rfl
  | succ fuel ih =>
    cases ys with
    | nil => rfl
    | cons y ys =>
      cases hx : sample F (bytesAt s pos (PyField.encSize F)) with
      | none => simp only [reS, hx]; exact ih (by omega)
      | some x =>
        simp only [reS, hx]
        rw [ih (by omega), writeAt_ne (Or.inl hi)]

theorem reS_nil {fuel pos : ℕ} {s : ℕ → UInt8} : reS F fuel pos [] s = s := by cases fuel <;> rfl

theorem writeAt_comm {s : ℕ → UInt8} {p q : ℕ} {c d : Bytes} (h : q + d.length ≤ p) :
    writeAt (writeAt s p c) q d = writeAt (writeAt s q d) p c := by
  funext i
  unfold writeAt
  by_cases h1 : q ≤ i ∧ i < q + d.length
  · rw [if_pos h1, if_neg (by omega), if_pos h1]
  · rw [if_neg h1]
    split <;> rfl

/-- A chunk before `p` may be written before or after the elements from `p` on are replaced. -/
theorem reS_writeAt {fuel p q : ℕ} {ys : List F} {s : ℕ → UInt8} {c : Bytes} (h : q + c.length ≤ p) :
    writeAt (reS F fuel p ys s) q c = reS F fuel p ys (writeAt s q c) := by
  induction fuel generalizing p ys s with
  | zero => rfl
  | succ fuel ih =>
    cases ys with
    | nil => rfl
    | cons y ys =>
      have hb : bytesAt (writeAt s q c) p (PyField.encSize F) = bytesAt s p (PyField.encSize F) :=
        bytesAt_agree fun i h5 _ => writeAt_ne (Or.inr (by omega))
      cases hx : sample F (bytesAt s p (PyField.encSize F)) with
      | none =>
        rw [reS, reS, hb, hx]
        exact ih (by omega)
      | some x =>
        rw [reS, reS, hb, hx]
        dsimp only
        rw [ih (by omega), writeAt_comm h]

theorem reS_spec {s : ℕ → UInt8} {fuel pos n : ℕ} {v : List F} {p : ℕ} (h : sampS F s fuel pos n = .ok (v, p))
    {ys : List F} (hy : ys.length = n) :
    sampS F (reS F fuel pos ys s) fuel pos n = .ok (ys, p) ∧
      reS F fuel pos v (reS F fuel pos ys s) = s ∧ ∀ i, p ≤ i → reS F fuel pos ys s i = s i := by
  induction fuel generalizing pos n v ys s with
  | zero =>
    cases n with
    | zero =>
      cases h
      rw [List.length_eq_zero_iff] at hy
      subst hy
      exact ⟨rfl, rfl, fun _ _ => rfl⟩
    | succ n => cases h
  | succ fuel ih =>
    cases n with
    | zero =>
      cases h
      rw [List.length_eq_zero_iff] at hy
      subst hy
      exact ⟨rfl, rfl, fun _ _ => rfl⟩
    | succ n =>
      cases ys with
      | nil => simp at hy
      | cons y ys =>
        cases hx : sample F (bytesAt s pos (PyField.encSize F)) with
        | none =>
          rw [sampS_none hx] at h
          obtain ⟨h1, h2, h3⟩ := ih h hy
          have e : reS F (fuel + 1) pos (y :: ys) s = reS F fuel (pos + PyField.encSize F) (y :: ys) s := by
            simp only [reS, hx]
          have hb : bytesAt (reS F fuel (pos + PyField.encSize F) (y :: ys) s) pos (PyField.encSize F) =
              bytesAt s pos (PyField.encSize F) := bytesAt_agree fun i _ h5 => reS_before h5
          have hx' := hb ▸ hx
          rw [e]
          refine ⟨?_, ?_, h3⟩
          · rw [sampS_none (hb ▸ hx)]; exact h1
          · cases v with
            | nil => have := (sampS_ok h).1; simp at this
            | cons a v =>
              have : reS F (fuel + 1) pos (a :: v) (reS F fuel (pos + PyField.encSize F) (y :: ys) s) =
                  reS F fuel (pos + PyField.encSize F) (a :: v) (reS F fuel (pos + PyField.encSize F) (y :: ys) s) := by
                rw [reS, hb, hx]
              rw [this, h2]
        | some x =>
          rw [sampS_some hx, Except.bind_eq_ok] at h
          obtain ⟨⟨w, q⟩, h4, h5⟩ := h
          cases h5
          have hq := (sampS_ok h4).2.1
          dsimp only at hq h4 ⊢
          obtain ⟨m1, m2, m3⟩ := moveChunk_spec (y := y) (bytesAt_len s pos (PyField.encSize F)) hx
          set c := moveChunk x y (bytesAt s pos (PyField.encSize F)) with hc
          set s1 := writeAt s pos c with hs1
          have e : reS F (fuel + 1) pos (y :: ys) s = reS F fuel (pos + PyField.encSize F) ys s1 := by
            simp only [reS, hx]
            rfl
          have h4' : sampS F s1 fuel (pos + PyField.encSize F) n = .ok (w, q) :=
            sampS_local h4 fun i i1 i2 => (writeAt_ne (Or.inr (by omega))).symm
          obtain ⟨h1, h2, h3⟩ := ih h4' (ys := ys) (by simpa using hy)
          have hb : bytesAt (reS F fuel (pos + PyField.encSize F) ys s1) pos (PyField.encSize F) = c := by
            rw [bytesAt_agree (s' := s1) fun i _ h5 => reS_before h5]
            conv_lhs => rw [← m1]
            exact bytesAt_writeAt s pos c
          rw [e]
          refine ⟨?_, ?_, ?_⟩
          · rw [sampS_some (hb ▸ m2), h1]; rfl
          · have : reS F (fuel + 1) pos (x :: w) (reS F fuel (pos + PyField.encSize F) ys s1) =
                reS F fuel (pos + PyField.encSize F) w (writeAt (reS F fuel (pos + PyField.encSize F) ys s1) pos
                  (moveChunk y x c)) := by
              rw [reS, hb, m2]
            rw [this, m3]
            -- the chunk at `pos` may be written before or after the rest is replaced
            have key : writeAt (reS F fuel (pos + PyField.encSize F) ys s1) pos (bytesAt s pos (PyField.encSize F)) =
                reS F fuel (pos + PyField.encSize F) ys s := by
              rw [reS_writeAt (by rw [bytesAt_len]), hs1, writeAt_writeAt (by rw [m1, bytesAt_len]), writeAt_bytesAt]
            rw [key]
            exact (ih h4 (ys := ys) (by simpa using hy)).2.1
          · intro i hi
            rw [h3 i hi, hs1, writeAt_ne (Or.inr (by omega))]

end
end Vdaf
