import Verif.Spec.Poplar1Privacy
import Verif.Props.Hiding

/-!
# The ideal process of Poplar1 and the code
-/

namespace Vdaf
open Spec

section
variable {prims : Prims} {fuel : ℕ} {I : Idpf}

theorem betaFun_of_betaOf {betaInner : List (List Field64)} {betaLeaf : List Field255} {level : ℕ} {κ : Kind}
    {x : List (Fk κ)} (h : betaOf betaInner betaLeaf level κ = some x) :
    Idpf.betaFun betaInner betaLeaf level κ = x := by
  cases κ with
  | inner =>
    show betaInner.getD level [] = x
    have : betaInner[level]? = some x := h
    rw [List.getD_eq_getElem?_getD, this]; rfl
  | leaf => exact Option.some.inj h

theorem neg_add_zip {F : Type} [CommRing F] {z : List F} {n : ℕ} (h : (z.map fun x => -x).length = n) :
    List.zipWith (· + ·) (z.map fun x => -x) z = List.replicate n 0 := by
  refine List.ext_getElem (by simpa using h) fun i h1 h2 => ?_
  simp

/-- One of the Aggregators has evaluated its key at the prefixes: the other one has values there too, and the sums of
the shares are those of the point function. -/
theorem eval_other (hf : fuel < 2 ^ 120) {alpha : List Bool} {betaInner : List (List Field64)}
    {betaLeaf : List Field255} {ctx nonce rand : Bytes} (hc : ctx.length + 8 < 2 ^ 16)
    (hib : ∀ x ∈ betaInner, x.length = I.valueLen) (hl : betaLeaf.length = I.valueLen)
    {pub : List CorrectionWord} {keys : List Bytes}
    (h : I.gen prims fuel alpha betaInner betaLeaf ctx nonce rand = .ok (pub, keys)) {b : ℕ} (hb : b < 2)
    {key key' : Bytes} (hk : keys[b]? = some key) (hk' : keys[1 - b]? = some key') {level : ℕ}
    {prefixes : List (List Bool)} {value : List (List (Fk (I.currentField level)))}
    (he : I.eval prims fuel (1 - b : ℕ) pub key' level prefixes ctx nonce = .ok value)
    {beta : List (Fk (I.currentField level))} (hbeta : betaOf betaInner betaLeaf level (I.currentField level) = some beta) :
    level < I.bits ∧ prefixes.Nodup ∧ (∀ p ∈ prefixes, p.length = level + 1) ∧
    List.Forall₂ (fun p y => ∃ y', NodeValue prims I.bits I.valueLen ctx nonce pub key b p _ y' ∧
      y.length = I.valueLen ∧ y'.length = I.valueLen ∧
      List.zipWith (· + ·) y y' = if p <+: alpha then beta else List.replicate I.valueLen 0) prefixes value := by
  have hlen : alpha.length = I.bits ∧ betaInner.length = I.bits - 1 ∧ rand.length = 32 ∧ nonce.length = 16 := by
    unfold Idpf.gen at h
    simp only [Except.bind_eq_ok] at h
    obtain ⟨_, h1, _, h2, _, h3, _, h4, -⟩ := h
    rw [raiseIf_eq_ok, decide_eq_false_iff_not, not_not] at h1 h2 h3 h4
    exact ⟨h1, h2, h3, h4⟩
  obtain ⟨ha, hi, hr, hn⟩ := hlen
  obtain ⟨hkeys, N, hN⟩ := (Idpf.gen_good (prims := prims) hf hc ha hi hib hl hr hn).elim h
  dsimp only at hkeys hN
  subst hkeys
  unfold Idpf.eval at he
  simp only [Except.bind_eq_ok] at he
  obtain ⟨_, -, _, h2, _, h3, he⟩ := he
  rw [raiseIf_eq_ok, decide_eq_false_iff_not, not_not] at h2 h3
  have hlv : level < I.bits := by have := h2.2; omega
  rw [mapRes_ok_iff] at he
  have hpl : ∀ p ∈ prefixes, p.length = level + 1 := by
    intro p hp
    obtain ⟨i, hi, rfl⟩ := List.mem_iff_getElem.1 hp
    have := he.get hi (by rw [← he.length_eq]; exact hi)
    simp only [List.get_eq_getElem] at this
    unfold Idpf.evalPrefix at this
    rw [Except.bind_eq_ok] at this
    obtain ⟨_, h1, -⟩ := this
    rw [raiseIf_eq_ok, decide_eq_false_iff_not, not_not] at h1
    exact h1
  refine ⟨hlv, (Idpf.nodup_iff_dedup _).1 h3, hpl, ?_⟩
  have hsh := hN.shaped
  have hseed : ∀ cw ∈ pub, cw.seedCw.length = 16 := fun cw hcw => (hsh.2 cw hcw).1
  have hkl : key.length = 16 := by
    interval_cases b
    · cases hk; simp [hr]
    · cases hk; simp [hr]
  have he' : List.Forall₂ (fun p y => p ∈ prefixes ∧ I.evalPrefix prims fuel (1 - b) pub key' level ctx nonce p = .ok y)
      prefixes value := List.forall₂_iff_get.2 ⟨he.length_eq, fun i h1 h2 => ⟨List.getElem_mem h1, he.get h1 h2⟩⟩
  refine he'.imp ?_
  rintro p y ⟨hp, hy⟩
  have hpp := hpl p hp
  have hpre : p <+: alpha ↔ p = alpha.take (level + 1) := by rw [List.prefix_iff_eq_take, hpp]
  have row := Idpf.evalPrefix_row hy
  have pair : ∃ y', I.evalPrefix prims fuel b pub key level ctx nonce p = .ok y' ∧
      List.zipWith (· + ·) y y' = if p <+: alpha then beta else List.replicate I.valueLen 0 := by
    have hbf := betaFun_of_betaOf hbeta
    interval_cases b
    · cases hk
      cases hk'
      rw [Idpf.evalPrefix_eq _ _ _ _ _ _ _ _ _ hpp, Except.bind_eq_ok] at hy
      obtain ⟨z1, r1, hz1⟩ := hy
      cases hz1
      rw [Idpf.evalPrefix_eq _ _ _ _ _ _ _ _ _ hpp]
      by_cases hon : p = alpha.take (level + 1)
      · obtain ⟨y0, y1, a0, a1, -, -, hz⟩ := hN.raw_on hlv hpp hon
        rw [r1] at a1
        cases a1
        refine ⟨y0, by rw [a0]; rfl, ?_⟩
        rw [if_pos (hpre.2 hon), List.zipWith_comm_of_comm add_comm, ← hbf]
        exact hz
      · have := hN.raw_off hlv hpp hon
        rw [r1] at this
        refine ⟨z1, by rw [this]; rfl, ?_⟩
        rw [if_neg fun h => hon (hpre.1 h)]
        exact neg_add_zip row
    · cases hk
      cases hk'
      rw [Idpf.evalPrefix_eq _ _ _ _ _ _ _ _ _ hpp, Except.bind_eq_ok] at hy
      obtain ⟨z0, r0, hz0⟩ := hy
      cases hz0
      rw [Idpf.evalPrefix_eq _ _ _ _ _ _ _ _ _ hpp]
      by_cases hon : p = alpha.take (level + 1)
      · obtain ⟨y0, y1, a0, a1, -, -, hz⟩ := hN.raw_on hlv hpp hon
        rw [r0] at a0
        cases a0
        refine ⟨vecNeg y1, by rw [a1]; rfl, ?_⟩
        rw [if_pos (hpre.2 hon), ← hbf]
        exact hz
      · have := hN.raw_off hlv hpp hon
        rw [r0] at this
        refine ⟨vecNeg z0, by rw [← this]; rfl, ?_⟩
        rw [if_neg fun h => hon (hpre.1 h), List.zipWith_comm_of_comm add_comm]
        exact neg_add_zip (by simpa [vecNeg] using row)
  obtain ⟨y', e', hs⟩ := pair
  exact ⟨y', Idpf.eval_node hf hc hkl hseed hb e', row, Idpf.evalPrefix_row e', hs⟩

end

section
variable {prims : Prims} {bits : ℕ}

theorem corrAt_unique {corrSeed ctx nonce : Bytes} {j level : ℕ} {κ : Kind} {abc abc' : List (Fk κ)}
    (h : CorrAt prims bits corrSeed ctx nonce j level κ abc) (h' : CorrAt prims bits corrSeed ctx nonce j level κ abc') :
    abc = abc' := by
  cases κ with
  | inner =>
    obtain ⟨-, bf, pos, pos', h1, h2, h3, h4⟩ := h
    obtain ⟨-, bf', q, q', h1', h2', h3', h4'⟩ := h'
    obtain ⟨rfl, rfl⟩ := Samples.unique h3 h3' (h1.trans h1'.symm)
    exact (Samples.unique h4 h4' (h2.trans h2'.symm)).1
  | leaf =>
    obtain ⟨-, pos, h1, h2⟩ := h
    obtain ⟨-, pos', h1', h2'⟩ := h'
    exact (Samples.unique h2 h2' (h1.trans h1'.symm)).1

/-- The correlated randomness of all the levels -/
theorem level_data {ctx nonce seed0 seed1 : Bytes} {ks : List Field64} {kLeaf : Field255} {key0 key1 : Bytes}
    {inner0 inner1 : List Field64} {leaf0 leaf1 : List Field255} (hks : ks.length = bits - 1)
    (hi : ∀ level k, ks[level]? = some k → ∃ abc0 abc1, CorrAt prims bits seed0 ctx nonce 0 level .inner abc0 ∧
        CorrAt prims bits seed1 ctx nonce 1 level .inner abc1 ∧
        CorrRel abc0 abc1 k ((inner0.drop (2 * level)).take 2) ((inner1.drop (2 * level)).take 2))
    (hl : ∃ abc0 abc1, CorrAt prims bits seed0 ctx nonce 0 (bits - 1) .leaf abc0 ∧
        CorrAt prims bits seed1 ctx nonce 1 (bits - 1) .leaf abc1 ∧ CorrRel abc0 abc1 kLeaf leaf0 leaf1)
    (level : ℕ) (hlv : level < bits) {κ : Kind} (hκ : levelKind bits level = κ) :
    ∃ (k : Fk κ) (t0 t1 : Fk κ × Fk κ × Fk κ) (AB0 AB1 : Fk κ × Fk κ), authAt ks kLeaf level κ = some k ∧
      CorrAt prims bits seed0 ctx nonce 0 level κ [t0.1, t0.2.1, t0.2.2] ∧
      CorrAt prims bits seed1 ctx nonce 1 level κ [t1.1, t1.2.1, t1.2.2] ∧
      abAt ⟨key0, seed0, inner0, leaf0⟩ level κ = [AB0.1, AB0.2] ∧
      abAt ⟨key1, seed1, inner1, leaf1⟩ level κ = [AB1.1, AB1.2] ∧
      AB0.1 + AB1.1 = (sumAB t0 t1 k).1 ∧ AB0.2 + AB1.2 = (sumAB t0 t1 k).2 := by
  cases κ with
  | inner =>
    have hlt : level < bits - 1 := by
      by_contra hc
      rw [levelKind, Idpf.currentField_leaf (I := poplarIdpf bits) hc] at hκ
      cases hκ
    obtain ⟨abc0, abc1, c0, c1, a0, b0, c0', a1, b1, c1', A0, B0, A1, B1, rfl, rfl, e0, e1, e2, e3⟩ :=
      hi level _ (List.getElem?_eq_getElem (hks ▸ hlt : level < ks.length))
    exact ⟨_, (a0, b0, c0'), (a1, b1, c1'), (A0, B0), (A1, B1),
      List.getElem?_eq_getElem (hks ▸ hlt : level < ks.length), c0, c1, e0, e1, e2, e3⟩
  | leaf =>
    have hle : level = bits - 1 := by
      by_contra hc
      rw [levelKind, Idpf.currentField_inner (I := poplarIdpf bits) (by simp only; omega)] at hκ
      cases hκ
    subst hle
    obtain ⟨abc0, abc1, c0, c1, a0, b0, c0', a1, b1, c1', A0, B0, A1, B1, rfl, rfl, e0, e1, e2, e3⟩ := hl
    exact ⟨_, (a0, b0, c0'), (a1, b1, c1'), (A0, B0), (A1, B1), rfl, c0, c1, e0, e1, e2, e3⟩

theorem betaOf_auth (ks : List Field64) (kLeaf : Field255) (level : ℕ) (κ : Kind) :
    betaOf (ks.map fun k => [1, k]) [1, kLeaf] level κ = (authAt ks kLeaf level κ).map fun k => [1, k] := by
  cases κ with
  | inner => exact List.getElem?_map
  | leaf => rfl

theorem sumAB_comm {F : Type} [PyField F] (t t' : F × F × F) (k : F) : sumAB t t' k = sumAB t' t k := by
  unfold sumAB
  rw [add_comm t.1, add_comm t.2.1, add_comm t.2.2]

/-- The values of Aggregator `b` at the prefixes, and those of the other one -/
theorem own_of_other {K : Known} {κ : Kind} {pub : List CorrectionWord} {prefixes : List (List Bool)}
    {alpha : List Bool} {k : Fk κ} {ds hs : List (Fk κ)} (h1 : ds.length = prefixes.length)
    (h2 : hs.length = prefixes.length)
    (h : List.Forall₂ (fun p y => ∃ y' : List (Fk κ), NodeValue prims bits 2 K.ctx K.nonce pub K.key K.b p κ y' ∧
      y.length = 2 ∧ y'.length = 2 ∧ List.zipWith (· + ·) y y' = if p <+: alpha then [1, k] else List.replicate 2 0)
      prefixes (List.zipWith (fun d h => [d, h]) ds hs)) :
    ∃ ys, OwnValues prims (bits := bits) K κ pub prefixes ys ∧
      ds = List.zipWith (fun p y => isOn κ alpha p - y.1) prefixes ys ∧
      hs = List.zipWith (fun p y => isOn κ alpha p * k - y.2) prefixes ys := by
  induction prefixes generalizing ds hs with
  | nil =>
    obtain rfl := List.length_eq_zero_iff.1 h1
    obtain rfl := List.length_eq_zero_iff.1 h2
    exact ⟨[], .nil, rfl, rfl⟩
  | cons p ps ih =>
    obtain _ | ⟨d, ds⟩ := ds
    · simp at h1
    obtain _ | ⟨h', hs⟩ := hs
    · simp at h2
    rw [List.zipWith_cons_cons] at h
    cases h with
    | cons hp hps =>
      obtain ⟨ys, i1, i2, i3⟩ := ih (by simpa using h1) (by simpa using h2) hps
      obtain ⟨y', v1, -, v2, v3⟩ := hp
      obtain ⟨u, w, rfl⟩ := Poplar1.list_two v2
      refine ⟨(u, w) :: ys, .cons v1 i1, ?_, ?_⟩
      · rw [List.zipWith_cons_cons, ← i2]
        congr 1
        by_cases hon : p <+: alpha
        · rw [if_pos hon] at v3
          simp only [List.zipWith_cons_cons, List.cons.injEq] at v3
          simp only [isOn, if_pos hon]
          exact eq_sub_of_add_eq v3.1
        · rw [if_neg hon] at v3
          simp only [List.zipWith_cons_cons, List.replicate, List.cons.injEq] at v3
          simp only [isOn, if_neg hon]
          exact eq_sub_of_add_eq v3.1
      · rw [List.zipWith_cons_cons, ← i3]
        congr 1
        by_cases hon : p <+: alpha
        · rw [if_pos hon] at v3
          simp only [List.zipWith_cons_cons, List.cons.injEq] at v3
          simp only [isOn, if_pos hon, one_mul]
          exact eq_sub_of_add_eq v3.2.1
        · rw [if_neg hon] at v3
          simp only [List.zipWith_cons_cons, List.replicate, List.cons.injEq] at v3
          simp only [isOn, if_neg hon, zero_mul]
          exact eq_sub_of_add_eq v3.2.1

end
end Vdaf
