import Verif.Spec.Poplar1
import Verif.Spec.Vdaf
import Verif.Proofs.Idpf
import Verif.Proofs.Sharing

/-! Aggregation of Poplar1 output shares. -/

namespace Vdaf
namespace Poplar1
variable {P : Poplar1} {prims : Prims} {fuel : ℕ}

theorem vecAddF_fold {κ : Kind} (outs : List FieldVec) (a : List (Fk κ)) :
    forFold outs (⟨κ, a⟩ : FieldVec) vecAddF =
      (forFold (outs.map (castVec κ)) a (fun acc v => vecAdd acc v)).map (fun v => (⟨κ, v⟩ : FieldVec)) := by
  induction outs generalizing a with
  | nil => rfl
  | cons o outs ih =>
    rw [List.map_cons, forFold_cons, forFold_cons]
    unfold vecAddF
    cases vecAdd a (castVec κ o) with
    | error e => rfl
    | ok v => exact ih v

theorem zeros_tab {F : Type} [PyField F] (n : ℕ) : fieldZeros F n = tab n fun _ => (0 : F) := by
  apply List.ext_getElem (by simp [fieldZeros])
  intro i h1 h2
  simp [fieldZeros, tab_getElem]

theorem merge_eq (a : Poplar1AggParam) (outs : List FieldVec) :
    P.merge a outs = if ∀ v ∈ outs, v.2.length = a.2.length then
        .ok ⟨P.idpf.currentField a.1, tab a.2.length fun j => colsum (outs.map (castVec _)) j⟩
      else .error (.value "mismatched vector sizes") := by
  unfold merge
  rw [vecAddF_fold, zeros_tab, vecAdd_foldl]
  have : (∀ v ∈ outs.map (castVec (P.idpf.currentField a.1)), v.length = a.2.length) ↔
      ∀ v ∈ outs, v.2.length = a.2.length := by
    simp only [List.mem_map, forall_exists_index, and_imp, forall_apply_eq_imp_iff₂, castVec_length]
  by_cases h : ∀ v ∈ outs, v.2.length = a.2.length
  · rw [if_pos h, if_pos (this.2 h)]
    simp only [zero_add]
    rfl
  · rw [if_neg h, if_neg (fun hh => h (this.1 hh))]
    rfl

theorem aggregate_eq_merge (a : Poplar1AggParam) (outs : List FieldVec) :
    Spec.aggregate (P.vdaf prims fuel) a outs = P.merge a outs := rfl

theorem merge_perm {a : Poplar1AggParam} {l l' : List FieldVec} (h : l.Perm l') :
    P.merge a l = P.merge a l' := by
  rw [merge_eq, merge_eq]
  have hc : ∀ j, colsum (l.map (castVec (P.idpf.currentField a.1))) j =
      colsum (l'.map (castVec (P.idpf.currentField a.1))) j := fun j => colsum_perm (h.map _) j
  simp only [h.mem_iff, hc]

theorem merge_flatten (a : Poplar1AggParam) (bs : List (List FieldVec)) :
    (do
      let as ← mapRes (P.merge a) bs
      P.merge a as) = P.merge a bs.flatten := by
  by_cases hall : ∀ b ∈ bs, ∀ v ∈ b, v.2.length = a.2.length
  · rw [mapRes_pure (P.merge a) (fun b => ⟨P.idpf.currentField a.1,
      tab a.2.length fun j => colsum (b.map (castVec _)) j⟩) bs
      (fun b hb => by rw [merge_eq, if_pos (hall b hb)])]
    simp only [Except.ok_bind']
    rw [merge_eq, merge_eq, if_pos (by simp), if_pos (by
      intro v hv
      obtain ⟨b, hb, hv⟩ := List.mem_flatten.1 hv
      exact hall b hb v hv)]
    congr 2
    apply tab_congr
    intro j hj
    clear hall
    induction bs with
    | nil => rfl
    | cons b bs ih =>
      rw [List.flatten_cons, List.map_append, colsum_append, ← ih]
      simp [colsum, castVec_self, coef_tab, hj]
  · rw [merge_eq (outs := bs.flatten), if_neg (fun h => hall fun b hb v hv =>
      h v (List.mem_flatten.2 ⟨b, hb, hv⟩))]
    have : mapRes (P.merge a) bs = .error (.value "mismatched vector sizes") := by
      induction bs with
      | nil => simp at hall
      | cons b bs ih =>
        rw [mapRes_cons, merge_eq]
        by_cases hb : ∀ v ∈ b, v.2.length = a.2.length
        · rw [if_pos hb, ih (fun h => hall fun c hc => by
            rcases List.mem_cons.1 hc with rfl | hc
            · exact hb
            · exact h c hc)]
          rfl
        · rw [if_neg hb]; rfl
    rw [this]; rfl

end Poplar1
end Vdaf
