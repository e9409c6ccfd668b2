import Mathlib.Tactic.LinearCombination
import Verif.Spec.Poplar1Privacy
import Verif.Proofs.Hiding

/-!
# Counting the random values that lead to a view of Poplar1
-/

namespace Vdaf
open Spec

/-! ### The sketch of the honest Aggregator -/

section
variable {κ : Kind}

/-- The sum of the random elements at the prefixes of `alpha` -/
def onSum (alpha : List Bool) (prefixes : List (List Bool)) (rs : List (Fk κ)) : Fk κ :=
  (List.zipWith (fun p r => isOn κ alpha p * r) prefixes rs).sum

theorem isOn_pos {alpha p : List Bool} (h : p <+: alpha) : isOn κ alpha p = 1 := if_pos h

theorem isOn_neg {alpha p : List Bool} (h : ¬ p <+: alpha) : isOn κ alpha p = 0 := if_neg h

theorem onSum_off {alpha : List Bool} {prefixes : List (List Bool)} (h : ∀ p ∈ prefixes, ¬ p <+: alpha)
    (rs : List (Fk κ)) : onSum alpha prefixes rs = 0 ∧
      (List.zipWith (fun p r => isOn κ alpha p * r ^ 2) prefixes rs).sum = 0 := by
  unfold onSum
  induction prefixes generalizing rs with
  | nil => simp
  | cons p ps ih =>
    cases rs with
    | nil => simp
    | cons r rs =>
      obtain ⟨h1, h2⟩ := ih (fun q hq => h q (List.mem_cons_of_mem _ hq)) rs
      simp [h1, h2, isOn_neg (h p List.mem_cons_self)]

theorem onSum_sq {alpha : List Bool} {prefixes : List (List Bool)} {n : ℕ} (hn : prefixes.Nodup)
    (hl : ∀ p ∈ prefixes, p.length = n) (rs : List (Fk κ)) :
    (List.zipWith (fun p r => isOn κ alpha p * r ^ 2) prefixes rs).sum = onSum alpha prefixes rs ^ 2 := by
  induction prefixes generalizing rs with
  | nil => simp [onSum]
  | cons p ps ih =>
    cases rs with
    | nil => simp [onSum]
    | cons r rs =>
      have hn' := List.nodup_cons.1 hn
      have ih' := ih hn'.2 (fun q hq => hl q (List.mem_cons_of_mem _ hq)) rs
      by_cases hp : p <+: alpha
      · obtain ⟨h1, h2⟩ := onSum_off (κ := κ) (alpha := alpha) (prefixes := ps) (fun q hq hqa => by
          have : p = q := by
            rw [List.prefix_iff_eq_take.1 hp, List.prefix_iff_eq_take.1 hqa, hl p List.mem_cons_self,
              hl q (List.mem_cons_of_mem _ hq)]
          exact hn'.1 (this ▸ hq)) rs
        unfold onSum at h1 ⊢
        simp only [List.zipWith_cons_cons, List.sum_cons, h1, h2, isOn_pos hp]
        ring
      · unfold onSum at ih' ⊢
        simp only [List.zipWith_cons_cons, List.sum_cons, ih']
        simp [isOn_neg hp]

theorem sketch_split {alpha : List Bool} {prefixes : List (List Bool)} {ys : List (Fk κ × Fk κ)} {rs : List (Fk κ)}
    (k : Fk κ) (h1 : ys.length = prefixes.length) (h2 : rs.length = prefixes.length) :
    sketchOf (List.zipWith (fun p y => isOn _ alpha p - y.1) prefixes ys)
      (List.zipWith (fun p y => isOn _ alpha p * k - y.2) prefixes ys) rs =
    (onSum alpha prefixes rs - (sketchOf (ys.map Prod.fst) (ys.map Prod.snd) rs).1,
      (List.zipWith (fun p r => isOn κ alpha p * r ^ 2) prefixes rs).sum -
        (sketchOf (ys.map Prod.fst) (ys.map Prod.snd) rs).2.1,
      onSum alpha prefixes rs * k - (sketchOf (ys.map Prod.fst) (ys.map Prod.snd) rs).2.2) := by
  unfold sketchOf onSum
  induction prefixes generalizing ys rs with
  | nil =>
    obtain rfl := List.length_eq_zero_iff.1 h1
    simp
  | cons p ps ih =>
    obtain _ | ⟨y, ys⟩ := ys
    · simp at h1
    obtain _ | ⟨r, rs⟩ := rs
    · simp at h2
    have := ih (ys := ys) (rs := rs) (by simpa using h1) (by simpa using h2)
    simp only [Prod.mk.injEq] at this
    obtain ⟨a, b, c⟩ := this
    simp only [List.zipWith_cons_cons, List.map_cons, List.sum_cons, a, b, c, Prod.mk.injEq]
    refine ⟨by ring, by ring, by ring⟩

/-! ### Changing the measurement -/

/-- The scalars among the random values of a level: `k`, the triple of the honest Aggregator and the shares of the second
Aggregator -/
abbrev Scalars (κ : Kind) := Fk κ × (Fk κ × Fk κ × Fk κ) × (Fk κ × Fk κ)

/-- The random values from the scalars and the expansion -/
def toCoins (s : Scalars κ) (e : Expansion κ) : LevelCoins κ := ⟨e, s.1, s.2.1, s.2.2⟩

/-- The scalars that lead to the same view for another measurement -/
def shiftScalars (X X' : Fk κ) (s : Scalars κ) : Scalars κ :=
  let k' := s.1 + 2 * (X - X')
  (k', (s.2.1.1 + (X - X'), s.2.1.2.1 + (X ^ 2 - X' ^ 2), s.2.1.2.2 + (X * s.1 - X' * k')), s.2.2)

theorem shiftScalars_inj (X X' : Fk κ) : Function.Injective (shiftScalars X X') := by
  rintro ⟨k, ⟨a, b, c⟩, h⟩ ⟨k', ⟨a', b', c'⟩, h'⟩ e
  simp only [shiftScalars, Prod.mk.injEq, add_left_inj] at e
  obtain ⟨rfl, ⟨rfl, rfl, e⟩, rfl⟩ := e
  simp only [add_left_inj] at e
  rw [e]

/-- The sums of the shares do not change. -/
theorem sumAB_shift (X X' : Fk κ) (t : Fk κ × Fk κ × Fk κ) (s : Scalars κ) :
    sumAB t (shiftScalars X X' s).2.1 (shiftScalars X X' s).1 = sumAB t s.2.1 s.1 := by
  unfold sumAB shiftScalars
  simp only [Prod.mk.injEq]
  exact ⟨by ring, by ring⟩

end

section
variable {prims : Prims} {bits : ℕ} {K : Known}

/-- The scalars of a level that lead to a given view -/
def scalarSet (prims : Prims) (K : Known) (alpha : List Bool) (pub : List CorrectionWord) (level : ℕ)
    (query : Option (List (List Bool))) (own : Fk (levelKind bits level) × Fk (levelKind bits level))
    (v : RoundView (levelKind bits level)) : Set (Scalars (levelKind bits level)) :=
  {s | IdealOwn prims K level (toCoins s ⟨[], [], []⟩) own ∧ ∀ prefixes, query = some prefixes →
    IdealRound prims K alpha pub level prefixes (toCoins s ⟨[], [], []⟩) v}

theorem ownValues_unique {κ : Kind} {pub : List CorrectionWord} {prefixes : List (List Bool)}
    {ys ys' : List (Fk κ × Fk κ)} (h : OwnValues prims (bits := bits) K κ pub prefixes ys)
    (h' : OwnValues prims (bits := bits) K κ pub prefixes ys') : ys = ys' := by
  unfold OwnValues at h h'
  induction h generalizing ys' with
  | nil => cases h'; rfl
  | cons h1 _ ih =>
    cases h' with
    | cons h1' h2' =>
      have := C56_value_unique _ _ _ _ _ _ _ _ h1 h1'
      simp only [List.cons.injEq, and_true] at this
      rw [ih h2', Prod.ext this.1 this.2]

theorem scalarSet_le (alpha alpha' : List Bool) {pub : List CorrectionWord} {level : ℕ}
    {query : Option (List (List Bool))} {own : Fk (levelKind bits level) × Fk (levelKind bits level)}
    {v : RoundView (levelKind bits level)}
    (hq : ∀ prefixes, query = some prefixes → prefixes.Nodup ∧ ∀ p ∈ prefixes, p.length = level + 1) :
    (scalarSet prims K alpha pub level query own v).ncard ≤ (scalarSet prims K alpha' pub level query own v).ncard := by
  have hfin : (scalarSet prims K alpha' pub level query own v).Finite := Set.toFinite _
  rcases query with _ | prefixes
  · exact Set.ncard_le_ncard (fun s hs => ⟨hs.1, fun _ h => absurd h (by simp)⟩) hfin
  rcases Set.eq_empty_or_nonempty (scalarSet prims K alpha pub level (some prefixes) own v) with h0 | ⟨s0, hs0⟩
  · rw [h0, Set.ncard_empty]; exact Nat.zero_le _
  obtain ⟨ys, rs, t, pos, h1, h2, h3, h4, -, -⟩ := hs0.2 prefixes rfl
  obtain ⟨hn, hl⟩ := hq prefixes rfl
  refine Set.ncard_le_ncard_of_injOn (shiftScalars (onSum alpha prefixes rs) (onSum alpha' prefixes rs)) ?_
    (shiftScalars_inj _ _).injOn hfin
  rintro s ⟨⟨t0, ht0, hown⟩, hr⟩
  refine ⟨⟨t0, ht0, ?_⟩, ?_⟩
  · rw [hown]
    show _ = shareAB K.b (sumAB t0 (shiftScalars _ _ s).2.1 (shiftScalars _ _ s).1) s.2.2
    rw [sumAB_shift]
    rfl
  · intro _ hp
    cases hp
    obtain ⟨ys', rs', t', pos', h1', h2', h3', h4', h5', h6'⟩ := hr prefixes rfl
    obtain rfl := ownValues_unique h1 h1'
    obtain ⟨rfl, -⟩ := Samples.unique h3 h3' (h2.trans h2'.symm)
    have hly : ys.length = prefixes.length := h1.length_eq.symm
    refine ⟨ys, rs, t', pos', h1', h2', h3', h4', ?_, ?_⟩
    · dsimp only at h5' ⊢
      rw [sketch_split _ hly h2, onSum_sq hn hl] at h5' ⊢
      rw [h5']
      simp only [toCoins, shiftScalars, Prod.mk.injEq]
      exact ⟨by ring, by ring, by ring⟩
    · dsimp only at h6' ⊢
      rw [h6']
      simp only [toCoins, sumAB_shift]
      rfl

/-- Counting pairs with fibres of the same size -/
theorem ncard_fiber {α β : Type} [Finite α] {R : Set α} {E : α → Set β} {m : ℕ} (hm : 0 < m)
    (h : ∀ a ∈ R, (E a).ncard = m) : {p : α × β | p.1 ∈ R ∧ p.2 ∈ E p.1}.ncard = R.ncard * m := by
  classical
  have e : ↥{p : α × β | p.1 ∈ R ∧ p.2 ∈ E p.1} ≃ (Σ a : R, E a) :=
    { toFun := fun p => ⟨⟨p.1.1, p.2.1⟩, ⟨p.1.2, p.2.2⟩⟩
      invFun := fun q => ⟨(q.1.1, q.2.1), q.1.2, q.2.2⟩
      left_inv := fun p => rfl
      right_inv := fun q => rfl }
  have hf : ∀ a : R, Finite (E a) := fun a => Set.finite_of_ncard_pos (by rw [h a a.2]; exact hm)
  have : Fintype R := Fintype.ofFinite _
  rw [← Nat.card_coe_set_eq, Nat.card_congr e, Nat.card_sigma,
    Finset.sum_congr rfl (g := fun _ => m) (fun a _ => by rw [Nat.card_coe_set_eq, h a a.2]), Finset.sum_const,
    Finset.card_univ, smul_eq_mul, ← Nat.card_eq_fintype_card, Nat.card_coe_set_eq]

/-- The random values of one level that lead to a given view -/
def LevelOk (prims : Prims) (K : Known) (alpha : List Bool) (pub : List CorrectionWord) (level : ℕ)
    (query : Option (List (List Bool))) (own : Fk (levelKind bits level) × Fk (levelKind bits level))
    (v : RoundView (levelKind bits level)) (c : LevelCoins (levelKind bits level)) : Prop :=
  c.tree.Sized 2 ∧ (∃ cw, pub[level]? = some cw ∧
    IdealWord prims (poplarIdpf bits) K.ctx K.nonce K.b K.key alpha pub level [1, c.auth] c.tree cw) ∧
  IdealOwn prims K level c own ∧ ∀ prefixes, query = some prefixes →
    IdealRound prims K alpha pub level prefixes c v

theorem levelOk_ncard {alpha : List Bool} {pub : List CorrectionWord} {level : ℕ}
    {query : Option (List (List Bool))} {own : Fk (levelKind bits level) × Fk (levelKind bits level)}
    {v : RoundView (levelKind bits level)} (ha : level < alpha.length)
    (hv : ∃ y, NodeValue prims bits 2 K.ctx K.nonce pub K.key K.b (alpha.take (level + 1)) (levelKind bits level) y)
    (hp : ∃ cw w, pub[level]? = some cw ∧ cw.seedCw.length = 16 ∧ lowBit cw.seedCw = false ∧
      cw.wCw = ⟨levelKind bits level, w⟩ ∧ w.length = 2) :
    {c | LevelOk prims K alpha pub level query own v c}.ncard =
      (scalarSet prims K alpha pub level query own v).ncard * 2 ^ 127 := by
  obtain ⟨cw, w, h1, h2, h3, h4, h5⟩ := hp
  have key := ncard_fiber (R := scalarSet prims K alpha pub level query own v)
    (E := fun s => {e : Expansion (levelKind bits level) | e.Sized 2 ∧
      IdealWord prims (poplarIdpf bits) K.ctx K.nonce K.b K.key alpha pub level [1, s.1] e cw})
    (m := 2 ^ 127) (by positivity)
    (fun s _ => idealWord_ncard (I := poplarIdpf bits) ha hv h1 h2 h3 h4 h5 rfl)
  rw [← key]
  rw [← Set.ncard_image_of_injective (f := fun p : Scalars (levelKind bits level) × Expansion (levelKind bits level) =>
    toCoins p.1 p.2)]
  · congr 1
    ext ⟨e, k, t, h⟩
    simp only [Set.mem_image, Set.mem_ofPred_eq, LevelOk, h1]
    constructor
    · rintro ⟨c1, ⟨_, hcw, c2⟩, c3, c4⟩
      cases hcw
      exact ⟨((k, t, h), e), ⟨⟨c3, c4⟩, c1, c2⟩, rfl⟩
    · rintro ⟨⟨⟨k', t', h'⟩, e'⟩, ⟨⟨c3, c4⟩, c1, c2⟩, he⟩
      cases he
      exact ⟨c1, ⟨_, rfl, c2⟩, c3, c4⟩
  · rintro ⟨⟨k, t, h⟩, e⟩ ⟨⟨k', t', h'⟩, e'⟩ heq
    cases heq
    rfl

theorem reportCoins_eq {queries : Fin bits → Option (List (List Bool))} {alpha : List Bool} {v : ReportView bits}
    (hl : v.publicShare.length = bits) :
    {c ∈ reportCoins bits | IdealReport prims K queries alpha c v} =
    {c : ReportCoins bits | ∀ level : Fin bits, LevelOk prims K alpha v.publicShare level (queries level) (v.own level)
      (v.rounds level) (c level)} := by
  ext c
  constructor
  · rintro ⟨h1, ⟨-, h2⟩, h3⟩ level
    exact ⟨h1 level, h2 level, h3 level⟩
  · intro h
    exact ⟨fun level => (h level).1, ⟨hl, fun level => (h level).2.1⟩, fun level => (h level).2.2⟩

theorem report_ncard {queries : Fin bits → Option (List (List Bool))}
    (hq : ∀ level prefixes, queries level = some prefixes → prefixes.Nodup ∧ ∀ p ∈ prefixes, p.length = level.val + 1)
    {alpha alpha' : List Bool} (ha : alpha.length = bits) (ha' : alpha'.length = bits) {v : ReportView bits}
    (hv : HasValues prims (poplarIdpf bits) K.ctx K.nonce v.publicShare K.key K.b alpha)
    (hv' : HasValues prims (poplarIdpf bits) K.ctx K.nonce v.publicShare K.key K.b alpha') :
    {c ∈ reportCoins bits | IdealReport prims K queries alpha c v}.ncard =
    {c ∈ reportCoins bits | IdealReport prims K queries alpha' c v}.ncard := by
  by_cases hp : PublicShareFormat (poplarIdpf bits) v.publicShare
  · obtain ⟨hp1, hp2⟩ := hp
    rw [reportCoins_eq hp1, reportCoins_eq hp1,
      ncard_pi fun (level : Fin bits) c => LevelOk prims K alpha v.publicShare level (queries level) (v.own level)
        (v.rounds level) c,
      ncard_pi fun (level : Fin bits) c => LevelOk prims K alpha' v.publicShare level (queries level) (v.own level)
        (v.rounds level) c]
    refine Finset.prod_congr rfl fun level _ => ?_
    rw [levelOk_ncard (by omega) (hv level level.2) (hp2 level level.2),
      levelOk_ncard (by omega) (hv' level level.2) (hp2 level level.2)]
    congr 1
    exact le_antisymm (scalarSet_le _ _ (hq level)) (scalarSet_le _ _ (hq level))
  · have empty : ∀ a, {c ∈ reportCoins bits | IdealReport prims K queries a c v} = ∅ := by
      intro a
      ext c
      simp only [Set.mem_ofPred_eq, Set.mem_empty_iff_false, iff_false]
      rintro ⟨h1, ⟨h2, h3⟩, -⟩
      refine hp ⟨h2, fun level hl => ?_⟩
      obtain ⟨cw, c1, c2⟩ := h3 ⟨level, hl⟩
      obtain ⟨f1, f2, w, f3, f4⟩ := idealWord_format (I := poplarIdpf bits) rfl (h1 ⟨level, hl⟩) c2
      exact ⟨cw, w, c1, f1, f2, f3, f4⟩
    rw [empty, empty]

theorem finite_levelCoins (κ : Kind) : {c : LevelCoins κ | c.tree.Sized 2}.Finite := by
  have : {c : LevelCoins κ | c.tree.Sized 2} ⊆ (fun p : Scalars κ × Expansion κ => toCoins p.1 p.2) ''
      ((Set.univ : Set (Scalars κ)) ×ˢ {e : Expansion κ | e.Sized 2}) := by
    rintro ⟨e, k, t, h⟩ hc
    exact ⟨((k, t, h), e), ⟨trivial, hc⟩, rfl⟩
  exact ((Set.finite_univ.prod (finite_sized 2 κ)).image _).subset this

theorem finite_reportCoins (bits : ℕ) : (reportCoins bits).Finite := by
  have : reportCoins bits = Set.pi Set.univ fun level : Fin bits =>
      {c : LevelCoins (levelKind bits level) | c.tree.Sized 2} := by
    ext e; simp [reportCoins]
  rw [this]
  exact Set.Finite.pi fun level => finite_levelCoins _

/-! ### The aggregate share -/

theorem otherOut_congr {n : ℕ} {K : Fin n → Known} {pub : Fin n → List CorrectionWord} {level : ℕ}
    {prefixes : List (List Bool)} {acc : Finset (Fin n)} {alpha alpha' : Fin n → List Bool}
    {agg : List (Fk (levelKind bits level))}
    (hc : ∀ p ∈ prefixes, (acc.filter fun i => p <+: alpha i).card = (acc.filter fun i => p <+: alpha' i).card)
    (h : agg.length = prefixes.length ∧ ∃ outs : acc → List (Fk (levelKind bits level)),
      (∀ i, OtherOut prims (K i.1) (alpha i.1) (pub i.1) level prefixes (outs i)) ∧ IsSum outs agg) :
    agg.length = prefixes.length ∧ ∃ outs : acc → List (Fk (levelKind bits level)),
      (∀ i, OtherOut prims (K i.1) (alpha' i.1) (pub i.1) level prefixes (outs i)) ∧ IsSum outs agg := by
  obtain ⟨hl, outs, h1, h2, h3⟩ := h
  choose ys hy ho using h1
  refine ⟨hl, fun i => List.zipWith (fun p y => isOn _ (alpha' i.1) p - y.1) prefixes (ys i),
    fun i => ⟨ys i, hy i, rfl⟩, fun i => ?_, fun j => ?_⟩
  · have := (hy i).length_eq
    simp [hl, ← this]
  · rw [h3 j]
    by_cases hj : j < prefixes.length
    · have e : ∀ (a : Fin n → List Bool) (i : acc), (List.zipWith (fun p y => isOn (levelKind bits level) (a i.1) p - y.1)
          prefixes (ys i)).getD j 0 = isOn _ (a i.1) prefixes[j] - ((ys i).getD j 0).1 := by
        intro a i
        have hj' : j < (ys i).length := by rw [← (hy i).length_eq]; exact hj
        rw [List.getD_eq_getElem?_getD, List.getD_eq_getElem?_getD, List.getElem?_eq_getElem (by simp; omega),
          List.getElem?_eq_getElem hj', Option.getD_some, Option.getD_some, List.getElem_zipWith]
      have cnt : ∀ a : Fin n → List Bool, ∑ i : acc, isOn (levelKind bits level) (a i.1) prefixes[j] =
          ((acc.filter fun i => prefixes[j] <+: a i).card : Fk (levelKind bits level)) := by
        intro a
        rw [Finset.sum_coe_sort acc fun i => isOn (levelKind bits level) (a i) prefixes[j]]
        simp only [isOn, Finset.sum_boole]
      simp only [ho]
      simp only [e, Finset.sum_sub_distrib, cnt, hc _ (List.getElem_mem hj)]
    · refine Finset.sum_congr rfl fun i _ => ?_
      rw [ho, List.getD_eq_getElem?_getD, List.getD_eq_getElem?_getD, List.getElem?_eq_none (by simp; omega),
        List.getElem?_eq_none (by simp; omega)]

end

end Vdaf
