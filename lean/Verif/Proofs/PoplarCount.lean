import Verif.Proofs.Hiding
import Mathlib.Data.Set.Card.Arithmetic

/-! Counting: coupling two experiments with an oracle, and hits under an action. -/

set_option linter.unusedSectionVars false

namespace Vdaf.PO

section
variable {X Pt I R : Type}

open Classical in
/-- The oracle `O`, with the values `σ` at the points `pt` -/
noncomputable def overwrite (pt : I → Pt) (σ : I → UInt8) (O : Pt → UInt8) (p : Pt) : UInt8 :=
  if h : ∃ i, pt i = p then σ h.choose else O p

theorem overwrite_at {pt : I → Pt} (hi : Function.Injective pt) (σ : I → UInt8) (O : Pt → UInt8) (i : I) :
    overwrite pt σ O (pt i) = σ i := by
  have h : ∃ i', pt i' = pt i := ⟨i, rfl⟩
  unfold overwrite
  rw [dif_pos h, hi h.choose_spec]

theorem overwrite_off {pt : I → Pt} (σ : I → UInt8) (O : Pt → UInt8) {p : Pt} (h : ∀ i, pt i ≠ p) :
    overwrite pt σ O p = O p := dif_neg fun ⟨i, hi⟩ => h i hi

/-- The oracle `O`, with the values `σ` added to the given masks at the given points -/
noncomputable def written (pt : I → Pt × UInt8) (σ : I → UInt8) (O : Pt → UInt8) : Pt → UInt8 :=
  overwrite (fun i => (pt i).1) (fun i => σ i ^^^ (pt i).2) O

/-- The oracles that differ from `O0` in `V` only -/
def Varies (V : Set Pt) (O0 : Pt → UInt8) : Set (Pt → UInt8) := {O | ∀ p, p ∉ V → O p = O0 p}

theorem varies_finite {V : Set Pt} (hV : V.Finite) (O0 : Pt → UInt8) : (Varies V O0).Finite := by
  classical
  have : Finite V := hV
  refine Set.Finite.of_injOn (f := fun O (p : V) => O p.1) (t := Set.univ) (fun _ _ => trivial) ?_ (Set.toFinite _)
  intro O hO O' hO' e
  funext p
  by_cases hp : p ∈ V
  · exact congrFun e ⟨p, hp⟩
  · rw [hO p hp, hO' p hp]

/-- An experiment `ideal` with fresh values `σ` leads to no more cases than the experiment `real` in which the oracle has
these values at the points `pt`. -/
theorem couple_le [Finite I] {WX : Set X} (hW : WX.Finite) {V : Set Pt} (hV : V.Finite) {O0 : Pt → UInt8}
    {real : X → (Pt → UInt8) → R} {ideal : X → (Pt → UInt8) → (I → UInt8) → R}
    {pt : X → (Pt → UInt8) → (I → UInt8) → I → Pt × UInt8} {rpt : X → (Pt → UInt8) → I → Pt × UInt8}
    {good : X → (Pt → UInt8) → (I → UInt8) → Prop}
    (h1 : ∀ x ∈ WX, ∀ O ∈ Varies V O0, ∀ σ, good x O σ → Function.Injective (fun i => (pt x O σ i).1) ∧
      (∀ i, (pt x O σ i).1 ∈ V) ∧ rpt x (written (pt x O σ) σ O) = pt x O σ ∧ real x (written (pt x O σ) σ O) = ideal x O σ)
    (E : Set R) :
    {w : X × (Pt → UInt8) × (I → UInt8) | w.1 ∈ WX ∧ w.2.1 ∈ Varies V O0 ∧ good w.1 w.2.1 w.2.2 ∧
      ideal w.1 w.2.1 w.2.2 ∈ E}.ncard ≤
    {w : X × (Pt → UInt8) | w.1 ∈ WX ∧ w.2 ∈ Varies V O0 ∧ real w.1 w.2 ∈ E}.ncard * Nat.card (I → UInt8) := by
  have hfin : {w : X × (Pt → UInt8) | w.1 ∈ WX ∧ w.2 ∈ Varies V O0 ∧ real w.1 w.2 ∈ E}.Finite :=
    (hW.prod (varies_finite hV O0)).subset fun w hw => ⟨hw.1, hw.2.1⟩
  rw [← Set.ncard_univ (I → UInt8), ← Set.ncard_prod]
  refine Set.ncard_le_ncard_of_injOn (fun w => ((w.1, written (pt w.1 w.2.1 w.2.2) w.2.2 w.2.1),
    fun i => w.2.1 (pt w.1 w.2.1 w.2.2 i).1)) ?_ ?_ (hfin.prod Set.finite_univ)
  · rintro ⟨x, O, σ⟩ ⟨hx, hO, hg, hE⟩
    obtain ⟨-, i2, -, i4⟩ := h1 x hx O hO σ hg
    refine ⟨⟨hx, fun p hp => ?_, ?_⟩, trivial⟩
    · show written (pt x O σ) σ O p = _
      unfold written
      rw [overwrite_off]
      · exact hO p hp
      · rintro i rfl
        exact hp (i2 i)
    · show real x (written _ _ _) ∈ E
      rw [i4]
      exact hE
  · rintro ⟨x, O, σ⟩ ⟨hx, hO, hg, -⟩ ⟨x', O', σ'⟩ ⟨hx', hO', hg', -⟩ e
    simp only [Prod.mk.injEq] at e
    obtain ⟨⟨rfl, e1⟩, e2⟩ := e
    obtain ⟨i1, -, i3, -⟩ := h1 x hx O hO σ hg
    obtain ⟨i1', -, i3', -⟩ := h1 x hx' O' hO' σ' hg'
    have ep : pt x O σ = pt x O' σ' := by rw [← i3, ← i3', e1]
    have es : σ = σ' := by
      funext i
      have h2 := overwrite_at i1 (fun i => σ i ^^^ (pt x O σ i).2) O i
      have h3 := overwrite_at i1' (fun i => σ' i ^^^ (pt x O' σ' i).2) O' i
      have h4 := congrFun e1 (pt x O σ i).1
      unfold written at h4
      rw [h2, ep, h3] at h4
      exact (UInt8.xor_left_inj _).1 h4
    subst es
    have eO : O = O' := by
      funext p
      by_cases hp : ∃ i, (pt x O σ i).1 = p
      · obtain ⟨i, rfl⟩ := hp
        have := congrFun e2 i
        rw [← ep] at this
        exact this
      · have := congrFun e1 p
        unfold written at this
        rw [overwrite_off _ _ (fun i hi => hp ⟨i, hi⟩), overwrite_off _ _ (fun i hi => hp ⟨i, by rw [ep]; exact hi⟩)] at this
        exact this
    rw [eO]

/-- The numbers of cases differ by at most the number of bad ones. -/
theorem couple [Finite I] {WX : Set X} (hW : WX.Finite) {V : Set Pt} (hV : V.Finite) {O0 : Pt → UInt8}
    {real : X → (Pt → UInt8) → R} {ideal : X → (Pt → UInt8) → (I → UInt8) → R}
    {pt : X → (Pt → UInt8) → (I → UInt8) → I → Pt × UInt8} {rpt : X → (Pt → UInt8) → I → Pt × UInt8}
    {good : X → (Pt → UInt8) → (I → UInt8) → Prop}
    (h1 : ∀ x ∈ WX, ∀ O ∈ Varies V O0, ∀ σ, good x O σ → Function.Injective (fun i => (pt x O σ i).1) ∧
      (∀ i, (pt x O σ i).1 ∈ V) ∧ rpt x (written (pt x O σ) σ O) = pt x O σ ∧ real x (written (pt x O σ) σ O) = ideal x O σ)
    (E : Set R) {bad real_E ideal_E : ℕ}
    (hbad : {w : X × (Pt → UInt8) × (I → UInt8) | w.1 ∈ WX ∧ w.2.1 ∈ Varies V O0 ∧ ¬ good w.1 w.2.1 w.2.2}.ncard = bad)
    (hreal : {w : X × (Pt → UInt8) | w.1 ∈ WX ∧ w.2 ∈ Varies V O0 ∧ real w.1 w.2 ∈ E}.ncard = real_E)
    (hideal : {w : X × (Pt → UInt8) × (I → UInt8) | w.1 ∈ WX ∧ w.2.1 ∈ Varies V O0 ∧ ideal w.1 w.2.1 w.2.2 ∈ E}.ncard = ideal_E) :
    ideal_E ≤ real_E * Nat.card (I → UInt8) + bad ∧ real_E * Nat.card (I → UInt8) ≤ ideal_E + bad := by
  have hVf := varies_finite hV O0
  have hΩ : (WX ×ˢ Varies V O0 ×ˢ (Set.univ : Set (I → UInt8))).Finite := hW.prod (hVf.prod Set.finite_univ)
  have key : ∀ (E : Set R), {w : X × (Pt → UInt8) × (I → UInt8) | w.1 ∈ WX ∧ w.2.1 ∈ Varies V O0 ∧
      ideal w.1 w.2.1 w.2.2 ∈ E}.ncard ≤
      {w : X × (Pt → UInt8) | w.1 ∈ WX ∧ w.2 ∈ Varies V O0 ∧ real w.1 w.2 ∈ E}.ncard * Nat.card (I → UInt8) + bad := by
    intro E
    refine le_trans (Set.ncard_le_ncard (t := {w | w.1 ∈ WX ∧ w.2.1 ∈ Varies V O0 ∧ good w.1 w.2.1 w.2.2 ∧
      ideal w.1 w.2.1 w.2.2 ∈ E} ∪ {w | w.1 ∈ WX ∧ w.2.1 ∈ Varies V O0 ∧ ¬ good w.1 w.2.1 w.2.2}) ?_ ?_) ?_
    · rintro w ⟨a, b, c⟩
      by_cases hg : good w.1 w.2.1 w.2.2
      · exact Or.inl ⟨a, b, hg, c⟩
      · exact Or.inr ⟨a, b, hg⟩
    · refine hΩ.subset ?_
      rintro w (⟨a, b, -⟩ | ⟨a, b, -⟩) <;> exact ⟨a, b, trivial⟩
    · refine (Set.ncard_union_le _ _).trans ?_
      rw [hbad]
      exact Nat.add_le_add_right (couple_le hW hV h1 E) _
  refine ⟨by rw [← hideal, ← hreal]; exact key E, ?_⟩
  have hc := key Eᶜ
  have e1 : {w : X × (Pt → UInt8) | w.1 ∈ WX ∧ w.2 ∈ Varies V O0 ∧ real w.1 w.2 ∈ E}.ncard +
      {w : X × (Pt → UInt8) | w.1 ∈ WX ∧ w.2 ∈ Varies V O0 ∧ real w.1 w.2 ∈ Eᶜ}.ncard = (WX ×ˢ Varies V O0).ncard := by
    rw [← Set.ncard_union_eq ?_ ((hW.prod hVf).subset fun w hw => ⟨hw.1, hw.2.1⟩)
      ((hW.prod hVf).subset fun w hw => ⟨hw.1, hw.2.1⟩)]
    · congr 1
      ext w
      constructor
      · rintro (⟨a, b, -⟩ | ⟨a, b, -⟩) <;> exact ⟨a, b⟩
      · rintro ⟨a, b⟩
        by_cases hE : real w.1 w.2 ∈ E
        · exact Or.inl ⟨a, b, hE⟩
        · exact Or.inr ⟨a, b, hE⟩
    · rw [Set.disjoint_left]
      rintro w ⟨-, -, h⟩ ⟨-, -, h'⟩
      exact h' h
  have e2 : {w : X × (Pt → UInt8) × (I → UInt8) | w.1 ∈ WX ∧ w.2.1 ∈ Varies V O0 ∧ ideal w.1 w.2.1 w.2.2 ∈ E}.ncard +
      {w : X × (Pt → UInt8) × (I → UInt8) | w.1 ∈ WX ∧ w.2.1 ∈ Varies V O0 ∧ ideal w.1 w.2.1 w.2.2 ∈ Eᶜ}.ncard =
      (WX ×ˢ Varies V O0).ncard * Nat.card (I → UInt8) := by
    rw [← Set.ncard_union_eq ?_ (hΩ.subset fun w hw => ⟨hw.1, hw.2.1, trivial⟩)
      (hΩ.subset fun w hw => ⟨hw.1, hw.2.1, trivial⟩), ← Set.ncard_univ (I → UInt8), ← Set.ncard_prod, ← Set.ncard_congr
      (s := (WX ×ˢ Varies V O0) ×ˢ (Set.univ : Set (I → UInt8))) (fun w _ => (w.1.1, w.1.2, w.2))]
    · rintro ⟨⟨x, O⟩, σ⟩ ⟨⟨a, b⟩, -⟩
      by_cases hE : ideal x O σ ∈ E
      · exact Or.inl ⟨a, b, hE⟩
      · exact Or.inr ⟨a, b, hE⟩
    · rintro ⟨⟨x, O⟩, σ⟩ ⟨⟨x', O'⟩, σ'⟩ - - e
      simpa [and_assoc] using e
    · rintro ⟨x, O, σ⟩ h
      refine ⟨((x, O), σ), ?_, rfl⟩
      rcases h with ⟨a, b, -⟩ | ⟨a, b, -⟩ <;> exact ⟨⟨a, b⟩, trivial⟩
    · rw [Set.disjoint_left]
      rintro w ⟨-, -, h⟩ ⟨-, -, h'⟩
      exact h' h
  rw [hreal] at e1
  rw [hideal, ← e1, Nat.add_mul] at e2
  omega

end

/-- The number of elements of `Hit`, if each element is moved into it by few elements of `D` only -/
theorem hit_bound {Ω D : Type} [Fintype D] {W Hit : Set Ω} (hW : W.Finite) (hs : Hit ⊆ W) {a : D → Ω → Ω}
    (ha : ∀ d, ∀ w ∈ W, a d w ∈ W) (hinj : ∀ d, Set.InjOn (a d) W) {c : ℕ}
    (hc : ∀ w ∈ W, {d | a d w ∈ Hit}.ncard ≤ c) : Hit.ncard * Fintype.card D ≤ W.ncard * c := by
  classical
  have hfH : Hit.Finite := hW.subset hs
  have e : ∀ d, {w ∈ W | a d w ∈ Hit}.ncard = Hit.ncard := by
    intro d
    have himg : a d '' W = W := Set.eq_of_subset_of_ncard_le (Set.image_subset_iff.2 (ha d))
      (Set.InjOn.ncard_image (hinj d)).ge hW
    have hsurj : Set.SurjOn (a d) W W := himg.ge
    refine Set.ncard_congr (fun w _ => a d w) (fun w hw => hw.2) (fun w w' hw hw' h => hinj d hw.1 hw'.1 h) fun h hh => ?_
    obtain ⟨w, hw, rfl⟩ := hsurj (hs hh)
    exact ⟨w, ⟨hw, hh⟩, rfl⟩
  have h1 : ∑ d : D, {w ∈ W | a d w ∈ Hit}.ncard = Fintype.card D * Hit.ncard := by
    rw [Finset.sum_congr rfl fun d _ => e d, Finset.sum_const, smul_eq_mul, Finset.card_univ]
  have h2 : ∑ d : D, {w ∈ W | a d w ∈ Hit}.ncard = ∑ w ∈ hW.toFinset, {d | a d w ∈ Hit}.ncard := by
    have l : ∀ d, {w ∈ W | a d w ∈ Hit}.ncard = ∑ w ∈ hW.toFinset, if a d w ∈ Hit then 1 else 0 := by
      intro d
      rw [Finset.sum_boole, Nat.cast_id, ← Set.ncard_coe_finset]
      congr 1
      ext w; simp
    have r : ∀ w, {d | a d w ∈ Hit}.ncard = ∑ d : D, if a d w ∈ Hit then 1 else 0 := by
      intro w
      rw [Finset.sum_boole, Nat.cast_id, ← Set.ncard_coe_finset]
      congr 1
      ext w; simp
    simp only [l, r]
    exact Finset.sum_comm
  rw [Nat.mul_comm, ← h1, h2]
  refine (Finset.sum_le_sum fun w hw => hc w (hW.mem_toFinset.1 hw)).trans ?_
  rw [Finset.sum_const, smul_eq_mul, Set.ncard_eq_toFinset_card W hW]

end Vdaf.PO
