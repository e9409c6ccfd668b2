import Verif.Proofs.Derive
import Verif.Proofs.XofTotal

/-! Field elements expanded from a stream, and a bijection of streams that replaces the elements expanded. -/

set_option linter.unusedSectionVars false

namespace Vdaf
open Spec (bytesAt sample)

section
variable {F : Type} [PyField F]

/-- The first chunks of a stream. -/
def chunksOf (F : Type) [PyField F] (fuel : ℕ) (s : ℕ → UInt8) : List Bytes :=
  (List.range fuel).map fun i => bytesAt s (i * PyField.encSize F) (PyField.encSize F)

/-- Sampling `n` elements from the first chunks of a stream gives `v`. -/
def Ev (F : Type) [PyField F] (fuel n : ℕ) (s : ℕ → UInt8) (v : List F) : Prop :=
  v.length = n ∧ ∃ w, (chunksOf F fuel s).filterMap (sample F) = v ++ w

theorem Ev.unique {fuel n : ℕ} {s : ℕ → UInt8} {v v' : List F} (h : Ev F fuel n s v) (h' : Ev F fuel n s v') :
    v = v' := by
  obtain ⟨h1, w, h2⟩ := h
  obtain ⟨h3, w', h4⟩ := h'
  exact (List.append_inj (h2.symm.trans h4) (h1.trans h3.symm)).1

theorem chunksOf_take {fuel k : ℕ} (hk : k ≤ fuel) (s : ℕ → UInt8) :
    (chunksOf F fuel s).take k = chunksOf F k s := by
  unfold chunksOf
  rw [← List.map_take, List.take_range, min_eq_left hk]

theorem readAll_chunks (prims : Prims) (fuel : ℕ) (m : Bytes) (k pos : ℕ) :
    Spec.readAll (XofTurboShake128 prims fuel) (⟨m, pos⟩ : TurboShakeState) (List.replicate k (PyField.encSize F)) =
      .ok ((List.range k).map fun i => bytesAt (prims.turboShake m 1) (pos + i * PyField.encSize F) (PyField.encSize F),
        (⟨m, pos + k * PyField.encSize F⟩ : TurboShakeState)) := by
  induction k generalizing pos with
  | zero => simp [Spec.readAll]
  | succ k ih =>
    rw [List.replicate_succ]
    have h1 := ih (pos + PyField.encSize F)
    simp only [Spec.readAll, XofTurboShake128] at h1 ⊢
    rw [h1]
    dsimp only
    rw [List.range_succ_eq_map, List.map_cons, List.map_map]
    congr 2
    · congr 1
      · simp [bytesAt]
      · apply List.map_congr_left
        intro i _
        simp only [Function.comp, Nat.succ_eq_add_one]
        congr 1
        ring
    · congr 1
      ring

theorem first_reaching {α β : Type} (g : α → Option β) (L : List α) (n : ℕ) (h : n ≤ (L.filterMap g).length) :
    ∃ k ≤ L.length, ((L.take k).filterMap g).length = n ∧ ∀ j < k, ((L.take j).filterMap g).length < n := by
  induction L generalizing n with
  | nil => exact ⟨0, le_rfl, by simpa using (h.antisymm (Nat.zero_le _)).symm, by omega⟩
  | cons a L ih =>
    cases n with
    | zero => exact ⟨0, Nat.zero_le _, by simp, by omega⟩
    | succ n =>
      cases ha : g a with
      | none =>
        rw [List.filterMap_cons_none ha] at h
        obtain ⟨k, h1, h2, h3⟩ := ih _ h
        refine ⟨k + 1, by simpa using h1, by rw [List.take_succ_cons, List.filterMap_cons_none ha, h2], ?_⟩
        intro j hj
        cases j with
        | zero => simp
        | succ j => rw [List.take_succ_cons, List.filterMap_cons_none ha]; exact h3 j (by omega)
      | some b =>
        rw [List.filterMap_cons_some ha, List.length_cons] at h
        obtain ⟨k, h1, h2, h3⟩ := ih n (by omega)
        refine ⟨k + 1, by simpa using h1, by rw [List.take_succ_cons, List.filterMap_cons_some ha, List.length_cons, h2], ?_⟩
        intro j hj
        cases j with
        | zero => simp
        | succ j =>
          rw [List.take_succ_cons, List.filterMap_cons_some ha, List.length_cons]
          have := h3 j (by omega)
          omega

theorem nextVec_ev {prims : Prims} {f fuel n : ℕ} {m : Bytes} {v : List F} :
    (∃ st', (XofTurboShake128 prims f).nextVec F fuel (⟨m, 0⟩ : TurboShakeState) n = .ok (v, st')) ↔
      Ev F fuel n (prims.turboShake m 1) v := by
  constructor
  · rintro ⟨st', h⟩
    obtain ⟨cs, h1, h2, h3, h4, -⟩ := (nextVec_ok ..).1 h
    rw [readAll_chunks] at h2
    have hcs : chunksOf F cs.length (prims.turboShake m 1) = cs := by
      have := (Prod.mk.inj (Except.ok.inj h2)).1
      unfold chunksOf
      simpa using this
    refine ⟨h4, ((chunksOf F fuel (prims.turboShake m 1)).drop cs.length).filterMap (sample F), ?_⟩
    simp only at h3
    conv_lhs => rw [← List.take_append_drop cs.length (chunksOf F fuel _)]
    rw [List.filterMap_append, chunksOf_take h1, hcs, h3]
  · rintro ⟨h1, w, h2⟩
    obtain ⟨k, h3, h4, h5⟩ := first_reaching (sample F) (chunksOf F fuel (prims.turboShake m 1)) n (by
      rw [h2, List.length_append]; omega)
    have hk : k ≤ fuel := by simpa [chunksOf] using h3
    rw [chunksOf_take hk] at h4
    have hl : (chunksOf F k (prims.turboShake m 1)).length = k := by simp [chunksOf]
    refine ⟨(⟨m, 0 + k * PyField.encSize F⟩ : TurboShakeState), (nextVec_ok ..).2
      ⟨chunksOf F k (prims.turboShake m 1), by rw [hl]; exact hk, ?_, ?_, h1, ?_⟩⟩
    · rw [hl, readAll_chunks]
      simp [chunksOf]
    · dsimp only
      rw [← List.take_append_drop k (chunksOf F fuel _), List.filterMap_append, chunksOf_take hk] at h2
      exact (List.append_inj h2 (h4.trans h1.symm)).1.symm
    · intro j hj
      rw [hl] at hj
      rw [chunksOf_take (by omega)]
      have := h5 j hj
      rwa [chunksOf_take (by omega)] at this

/-- Expansion of a seed in terms of the stream. -/
theorem expandIntoVec_ev {prims : Prims} {fuel n : ℕ} {seed dst binder : Bytes} {v : List F}
    (hd : dst.length < 2 ^ 16) (hs : seed.length < 2 ^ 8) :
    (XofTurboShake128 prims fuel).expandIntoVec F seed dst binder n = .ok v ↔
      Ev F fuel n (prims.turboShake (turboInput seed dst binder) 1) v := by
  rw [← nextVec_ev (prims := prims) (f := fuel)]
  have h0 : (XofTurboShake128 prims fuel).init seed dst binder =
      .ok (⟨turboInput seed dst binder, 0⟩ : TurboShakeState) := by rw [turbo_init, if_pos hd, if_pos hs]
  have h1 : (XofTurboShake128 prims fuel).expandIntoVec F seed dst binder n = (do
      let (vec, _) ← (XofTurboShake128 prims fuel).nextVec F fuel (⟨turboInput seed dst binder, 0⟩ : TurboShakeState) n
      return vec) := by
    unfold Xof.expandIntoVec
    rw [h0]
    rfl
  rw [h1]
  simp only [Except.bind_eq_ok]
  constructor
  · rintro ⟨⟨v', st'⟩, h, h'⟩
    cases h'
    exact ⟨st', h⟩
  · rintro ⟨st', h⟩
    exact ⟨(v, st'), h, rfl⟩

theorem deriveSeed_eq {prims : Prims} {fuel : ℕ} {seed dst binder : Bytes}
    (hd : dst.length < 2 ^ 16) (hs : seed.length < 2 ^ 8) :
    (XofTurboShake128 prims fuel).deriveSeed seed dst binder =
      .ok (bytesAt (prims.turboShake (turboInput seed dst binder) 1) 0 32) := by
  unfold Xof.deriveSeed
  rw [turbo_init, if_pos hd, if_pos hs]
  rfl

/-! ### Replacing the elements -/

theorem chunksOf_mem (fuel : ℕ) (s : ℕ → UInt8) : chunksOf F fuel s ∈
    chunkSeqs fuel ((chunksOf F fuel s).filterMap (sample F)) := by
  refine ⟨by simp [chunksOf], ?_, rfl⟩
  intro c hc
  obtain ⟨i, -, rfl⟩ := List.mem_map.1 hc
  simp [bytesAt]

/-- The stream that begins with the given chunks. -/
def unchunk (F : Type) [PyField F] (cs : List Bytes) (s : ℕ → UInt8) : ℕ → UInt8 := fun i =>
  if i < cs.length * PyField.encSize F then (cs.getD (i / PyField.encSize F) []).getD (i % PyField.encSize F) 0 else s i

theorem chunksOf_unchunk {fuel : ℕ} {cs : List Bytes} (hl : cs.length = fuel)
    (hc : ∀ c ∈ cs, c.length = PyField.encSize F) (s : ℕ → UInt8) : chunksOf F fuel (unchunk F cs s) = cs := by
  apply List.ext_getElem
  · simp [chunksOf, hl]
  intro i h1 h2
  have hlen : cs[i].length = PyField.encSize F := hc _ (List.getElem_mem h2)
  simp only [chunksOf, List.getElem_map, List.getElem_range]
  apply List.ext_getElem
  · simp [bytesAt, hlen]
  intro k h3 h4
  have hk : k < PyField.encSize F := by simpa [bytesAt] using h3
  simp only [bytesAt, List.getElem_map, List.getElem_range]
  unfold unchunk
  have hlt : i * PyField.encSize F + k < cs.length * PyField.encSize F := by
    calc _ < i * PyField.encSize F + PyField.encSize F := by omega
      _ = (i + 1) * PyField.encSize F := by ring
      _ ≤ _ := Nat.mul_le_mul_right _ h2
  rw [if_pos hlt, Nat.add_comm (i * _) k, Nat.add_mul_div_right _ _ (by omega), Nat.div_eq_of_lt hk, Nat.zero_add,
    Nat.add_mul_mod_self_right, Nat.mod_eq_of_lt hk, List.getD_eq_getElem?_getD, List.getD_eq_getElem?_getD,
    List.getElem?_eq_getElem h2, Option.getD_some, List.getElem?_eq_getElem h4, Option.getD_some]

theorem unchunk_chunksOf (fuel : ℕ) (s : ℕ → UInt8) : unchunk F (chunksOf F fuel s) s = s := by
  funext i
  unfold unchunk
  split
  · next h =>
    have hl : (chunksOf F fuel s).length = fuel := by simp [chunksOf]
    rw [hl] at h
    have hpos : 0 < PyField.encSize F := by
      rcases Nat.eq_zero_or_pos (PyField.encSize F) with h0 | h0
      · rw [h0] at h; omega
      · exact h0
    have h1 : i / PyField.encSize F < fuel := Nat.div_lt_of_lt_mul (by rw [Nat.mul_comm]; exact h)
    have h2 : (chunksOf F fuel s).getD (i / PyField.encSize F) [] =
        bytesAt s (i / PyField.encSize F * PyField.encSize F) (PyField.encSize F) := by
      rw [List.getD_eq_getElem?_getD, List.getElem?_eq_getElem (by rw [hl]; exact h1)]
      simp [chunksOf]
    rw [h2, List.getD_eq_getElem?_getD]
    unfold bytesAt
    rw [List.getElem?_eq_getElem (by simpa using Nat.mod_lt _ hpos), Option.getD_some]
    simp only [List.getElem_map, List.getElem_range]
    rw [Nat.div_add_mod']
  · rfl

theorem unchunk_unchunk {cs cs' : List Bytes} (h : cs.length = cs'.length) (s : ℕ → UInt8) :
    unchunk F cs (unchunk F cs' s) = unchunk F cs s := by
  funext i
  unfold unchunk
  rw [h]
  split <;> rfl

/-- Enumeration of the chunk sequences with given samples. -/
theorem exists_enum (k : ℕ) (v : List F) :
    Nonempty (chunkSeqs k v ≃ Fin (chunkSeqs k (List.replicate v.length (0 : F))).ncard) := by
  have : Finite (chunkSeqs k v) := chunkSeqs_finite k v
  rw [← sample_vec_card k v (List.replicate v.length 0) (by simp)]
  exact ⟨Finite.equivFinOfCardEq rfl⟩

/-- Enumeration of the chunk sequences with given samples. -/
noncomputable def enum (k : ℕ) (v : List F) :
    chunkSeqs k v ≃ Fin (chunkSeqs k (List.replicate v.length (0 : F))).ncard := (exists_enum k v).some

/-- The bijection between the chunk sequences with samples `v` and those with samples `v'`. -/
noncomputable def swapSeqs (k : ℕ) {v v' : List F} (h : v.length = v'.length) : chunkSeqs k v ≃ chunkSeqs k v' :=
  ((enum k v).trans (finCongr (by rw [h]))).trans (enum k v').symm

theorem swapSeqs_swap (k : ℕ) {v v' : List F} (h : v.length = v'.length) (c : chunkSeqs k v) :
    swapSeqs k h.symm (swapSeqs k h c) = c := by
  simp [swapSeqs]

open Classical in
/-- The stream in which the elements `v` expanded from `s` are replaced by `v'`. -/
noncomputable def retarget (fuel : ℕ) (v v' : List F) (s : ℕ → UInt8) : ℕ → UInt8 :=
  if h : v.length = v'.length ∧ ∃ w, (chunksOf F fuel s).filterMap (sample F) = v ++ w then
    unchunk F (swapSeqs fuel (v := v ++ h.2.choose) (v' := v' ++ h.2.choose) (by simp [h.1])
      ⟨chunksOf F fuel s, h.2.choose_spec ▸ chunksOf_mem fuel s⟩).1 s
  else s

theorem retarget_eq {fuel n : ℕ} {v v' w : List F} {s : ℕ → UInt8} (hv : v.length = n) (hv' : v'.length = n)
    (h : (chunksOf F fuel s).filterMap (sample F) = v ++ w) :
    ∃ hm : chunksOf F fuel s ∈ chunkSeqs fuel (v ++ w), retarget fuel v v' s =
      unchunk F (swapSeqs fuel (v := v ++ w) (v' := v' ++ w) (by simp [hv, hv']) ⟨chunksOf F fuel s, hm⟩).1 s := by
  have hc : v.length = v'.length ∧ ∃ w, (chunksOf F fuel s).filterMap (sample F) = v ++ w := ⟨hv.trans hv'.symm, w, h⟩
  have hw : hc.2.choose = w := by
    exact List.append_cancel_left (hc.2.choose_spec.symm.trans h)
  refine ⟨h ▸ chunksOf_mem fuel s, ?_⟩
  unfold retarget
  rw [dif_pos hc]
  congr!

theorem retarget_ev {fuel n : ℕ} {v v' : List F} {s : ℕ → UInt8} (hv' : v'.length = n) (h : Ev F fuel n s v) :
    Ev F fuel n (retarget fuel v v' s) v' := by
  obtain ⟨h1, w, h2⟩ := h
  obtain ⟨hm, he⟩ := retarget_eq h1 hv' h2
  refine ⟨hv', w, ?_⟩
  rw [he]
  set c := swapSeqs fuel (v := v ++ w) (v' := v' ++ w) (by simp [h1, hv']) ⟨chunksOf F fuel s, hm⟩
  rw [chunksOf_unchunk c.2.1 c.2.2.1]
  exact c.2.2.2

theorem retarget_back {fuel n : ℕ} {v v' : List F} {s : ℕ → UInt8} (hv' : v'.length = n) (h : Ev F fuel n s v) :
    retarget fuel v' v (retarget fuel v v' s) = s := by
  obtain ⟨h1, w, h2⟩ := h
  obtain ⟨hm, he⟩ := retarget_eq h1 hv' h2
  set c := swapSeqs fuel (v := v ++ w) (v' := v' ++ w) (by simp [h1, hv']) ⟨chunksOf F fuel s, hm⟩ with hc
  have hch : chunksOf F fuel (retarget fuel v v' s) = c.1 := by rw [he, chunksOf_unchunk c.2.1 c.2.2.1]
  obtain ⟨hm', he'⟩ := retarget_eq (s := retarget fuel v v' s) (w := w) hv' h1 (by rw [hch]; exact c.2.2.2)
  have hcc : (⟨chunksOf F fuel (retarget fuel v v' s), hm'⟩ : chunkSeqs fuel (v' ++ w)) = c := Subtype.ext hch
  rw [he', hcc, hc, swapSeqs_swap, he]
  rw [unchunk_unchunk, unchunk_chunksOf]
  rw [c.2.1]
  simp [chunksOf]

theorem retarget_beyond {fuel : ℕ} {v v' : List F} {s : ℕ → UInt8} {i : ℕ} (hi : fuel * PyField.encSize F ≤ i) :
    retarget fuel v v' s i = s i := by
  unfold retarget
  split
  · unfold unchunk
    rw [if_neg]
    rw [Subtype.prop (swapSeqs _ _ _) |>.1]
    omega
  · rfl

end
end Vdaf
