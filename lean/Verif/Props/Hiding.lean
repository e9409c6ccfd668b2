import Mathlib.Tactic.IntervalCases
import Mathlib.Tactic.Choose
import Verif.Proofs.Hiding

/-!
# What one key of the IDPF reveals (C62)

C62: an Aggregator that holds one of the two IDPF keys and the public share learns nothing about `alpha` and `beta`.
The only thing that depends on the other key in the public share are the expansions of the other Aggregator's seeds
along the path (`C62_gen`), and if these are uniformly random then the public share is uniformly random among those of
the right format, whatever `alpha`, `beta` and the known key are (`C62_uniform`).
-/

namespace Vdaf
open Spec

section
variable (prims : Prims) (I : Idpf) (ctx nonce : Bytes) (b : ℕ) (key : Bytes)

/-- C62: the ideal process is the real one with other expansions: for each of the Aggregators, the public share that
`gen` computes is that of the ideal process, for the expansions that are computed from the other Aggregator's key. -/
theorem C62_gen {fuel : ℕ} (hf : fuel < 2 ^ 120) {alpha : List Bool}
    {betaInner : List (List Field64)} {betaLeaf : List Field255} {rand : Bytes}
    (hc : ctx.length + 8 < 2 ^ 16) (hib : ∀ x ∈ betaInner, x.length = I.valueLen)
    (hl : betaLeaf.length = I.valueLen) {pub : List CorrectionWord} {keys : List Bytes}
    (h : I.gen prims fuel alpha betaInner betaLeaf ctx nonce rand = .ok (pub, keys)) (hb : b < 2) :
    ∃ key key' beta, keys[b]? = some key ∧ keys[1 - b]? = some key' ∧
      (∀ level : Fin I.bits, betaOf betaInner betaLeaf level (I.currentField level) = some (beta level) ∧
        (beta level).length = I.valueLen) ∧
      HasValues prims I ctx nonce pub key b alpha ∧
      ∃ e ∈ expansions I, ExpandedFrom prims I ctx nonce (1 - b) key' alpha pub e ∧
        IdealShare prims I ctx nonce b key alpha beta e pub := by
  obtain ⟨key0, key1, k0, k1, -, rfl, hpl, hal, hlev⟩ := C56_gen prims hf I hc hib hl h
  have hne : ∀ level ≤ I.bits, ∀ seed0 ctrl0 seed1 ctrl1,
      Node prims I.bits ctx nonce pub key0 0 (alpha.take level) seed0 ctrl0 →
      Node prims I.bits ctx nonce pub key1 1 (alpha.take level) seed1 ctrl1 → ctrl0 ≠ ctrl1 := by
    intro level
    induction level with
    | zero =>
      intro _ seed0 ctrl0 seed1 ctrl1 n0 n1
      obtain ⟨-, rfl⟩ := C56_node_unique _ _ _ _ _ _ _ n0 .root
      obtain ⟨-, rfl⟩ := C56_node_unique _ _ _ _ _ _ _ n1 .root
      decide
    | succ n ih =>
      intro hn seed0 ctrl0 seed1 ctrl1 n0 n1
      obtain ⟨bit, cw, s0, c0, s1, c1, -, -, -, hbit, hcw, m0, m1, -, -, -, ⟨-, hctrl⟩, -⟩ := hlev n (by omega)
      have hln : (alpha.take n).length = n := by simp; omega
      obtain ⟨hn', rfl⟩ := List.getElem?_eq_some_iff.1 hbit
      rw [List.take_succ_eq_append_getElem hn'] at n0 n1
      obtain ⟨-, rfl⟩ := C56_node_unique _ _ _ _ _ _ _ n0 (.child _ _ _ _ cw m0 (by rw [hln]; exact hcw))
      obtain ⟨-, rfl⟩ := C56_node_unique _ _ _ _ _ _ _ n1 (.child _ _ _ _ cw m1 (by rw [hln]; exact hcw))
      rw [hln, childCtrl_ne (ih (by omega) _ _ _ _ m0 m1) hctrl]
      simp
  have hlev' : ∀ level : Fin I.bits, ∃ bit cw seed0 ctrl0 seed1 ctrl1 beta w0 w1, _ := fun level => hlev level level.2
  choose bit cw seed0 ctrl0 seed1 ctrl1 beta w0 w1 h1 h2 h3 h4 h5 h6 h7 h8 h9 using hlev'
  have hbl : ∀ level, (beta level).length = I.valueLen := by
    intro level
    have := h5 level
    generalize beta level = x at this
    generalize I.currentField level = κ at x
    cases κ with
    | inner => exact hib _ (List.mem_of_getElem? this)
    | leaf => exact Option.some.inj this ▸ hl
  have hval : ∀ j < 2, ∀ key, [key0, key1][j]? = some key → HasValues prims I ctx nonce pub key j alpha := by
    intro j hj key hk level hlv
    have hln : (alpha.take level).length = level := by simp; omega
    obtain ⟨hn', hb'⟩ := List.getElem?_eq_some_iff.1 (h1 ⟨level, hlv⟩)
    rw [List.take_succ_eq_append_getElem (by omega)]
    interval_cases j
    · cases hk
      refine ⟨_, _, _, _, _, cw ⟨level, hlv⟩, w0 ⟨level, hlv⟩, by rw [hb'], h3 ⟨level, hlv⟩, ?_, ?_, rfl⟩
      · rw [hln]; exact h2 ⟨level, hlv⟩
      · rw [hln]; exact h6 ⟨level, hlv⟩
    · cases hk
      refine ⟨_, _, _, _, _, cw ⟨level, hlv⟩, w1 ⟨level, hlv⟩, by rw [hb'], h4 ⟨level, hlv⟩, ?_, ?_, rfl⟩
      · rw [hln]; exact h2 ⟨level, hlv⟩
      · rw [hln]; exact h7 ⟨level, hlv⟩
  interval_cases b
  · refine ⟨key0, key1, beta, rfl, rfl, fun level => ⟨h5 level, hbl level⟩, hval 0 (by omega) _ rfl,
      fun level => ⟨bytesAt (idpfStream prims I.bits level 0 (seed1 level) ctx nonce) 0 16,
        bytesAt (idpfStream prims I.bits level 0 (seed1 level) ctx nonce) 16 16, w1 level⟩, ?_, ?_, hpl, ?_⟩
    · exact fun level => ⟨by simp [bytesAt], by simp [bytesAt], (h7 level).1⟩
    · exact fun level => ⟨bit level, cw level, seed1 level, ctrl1 level, h1 level, h2 level, h4 level, rfl, rfl, h7 level⟩
    · intro level
      refine ⟨cw level, h2 level, bit level, seed0 level, ctrl0 level, w0 level, h1 level, h3 level, h6 level,
        ⟨?_, (h8 level).2⟩, ?_⟩
      · rw [(h8 level).1]
        cases bit level <;> rfl
      · dsimp only
        rw [h9 level, childCtrl_ne (hne level (by omega) _ _ _ _ (h3 level) (h4 level)) (h8 level).2]
        simp
  · refine ⟨key1, key0, beta, rfl, rfl, fun level => ⟨h5 level, hbl level⟩, hval 1 (by omega) _ rfl,
      fun level => ⟨bytesAt (idpfStream prims I.bits level 0 (seed0 level) ctx nonce) 0 16,
        bytesAt (idpfStream prims I.bits level 0 (seed0 level) ctx nonce) 16 16, w0 level⟩, ?_, ?_, hpl, ?_⟩
    · exact fun level => ⟨by simp [bytesAt], by simp [bytesAt], (h6 level).1⟩
    · exact fun level => ⟨bit level, cw level, seed0 level, ctrl0 level, h1 level, h2 level, h3 level, rfl, rfl, h6 level⟩
    · intro level
      refine ⟨cw level, h2 level, bit level, seed1 level, ctrl1 level, w1 level, h1 level, h4 level, h7 level,
        ⟨?_, ?_⟩, ?_⟩
      · rw [(h8 level).1, List.zipWith_comm_of_comm UInt8.xor_comm]
        cases bit level <;> rfl
      · rw [(h8 level).2]
        have comm : ∀ x y : Bool, (x != y) = (y != x) := by decide
        dsimp only
        rw [comm (lowBit (bytesAt _ 0 16)), comm (lowBit (bytesAt _ 16 16))]
      · dsimp only
        rw [h9 level]
        simp

/-- C62: every public share of the right format arises from the same number of expansions, whatever the point and the
values are and whatever the known key is. -/
theorem C62_uniform {alpha : List Bool} (ha : alpha.length = I.bits)
    {beta : (level : Fin I.bits) → List (Fk (I.currentField level))} (hb : ∀ level, (beta level).length = I.valueLen)
    {pub : List CorrectionWord} (hp : PublicShareFormat I pub)
    (hv : HasValues prims I ctx nonce pub key b alpha) :
    {e ∈ expansions I | IdealShare prims I ctx nonce b key alpha beta e pub}.ncard = (2 ^ 127) ^ I.bits := by
  obtain ⟨hp1, hp2⟩ := hp
  have : {e ∈ expansions I | IdealShare prims I ctx nonce b key alpha beta e pub} =
      {e : Expansions I | ∀ level : Fin I.bits, (e level).Sized I.valueLen ∧
        ∃ cw, pub[level.val]? = some cw ∧ IdealWord prims I ctx nonce b key alpha pub level (beta level) (e level) cw} := by
    ext e
    constructor
    · rintro ⟨h1, -, h2⟩ level
      exact ⟨h1 level, h2 level⟩
    · intro h
      exact ⟨fun level => (h level).1, hp1, fun level => (h level).2⟩
  rw [this, ncard_pi fun (level : Fin I.bits) (e : Expansion (I.currentField level)) => e.Sized I.valueLen ∧
        ∃ cw, pub[level.val]? = some cw ∧ IdealWord prims I ctx nonce b key alpha pub level (beta level) e cw]
  rw [Finset.prod_congr rfl (g := fun _ => 2 ^ 127), Finset.prod_const, Finset.card_univ, Fintype.card_fin]
  intro level _
  obtain ⟨cw, v, h1, h2, h3, h4, h5⟩ := hp2 level level.2
  have : {e : Expansion (I.currentField level) | e.Sized I.valueLen ∧
        ∃ cw, pub[level.val]? = some cw ∧ IdealWord prims I ctx nonce b key alpha pub level (beta level) e cw} =
      {e | e.Sized I.valueLen ∧ IdealWord prims I ctx nonce b key alpha pub level (beta level) e cw} := by
    ext e
    simp [h1]
  rw [this]
  exact idealWord_ncard (by omega) (hv level level.2) h1 h2 h3 h4 h5 (hb level)

/-- C62: the public share is determined by the expansions and has the right format. -/
theorem C62_function {alpha : List Bool}
    {beta : (level : Fin I.bits) → List (Fk (I.currentField level))} (hb : ∀ level, (beta level).length = I.valueLen)
    {e : Expansions I} (he : e ∈ expansions I) {pub pub' : List CorrectionWord}
    (h : IdealShare prims I ctx nonce b key alpha beta e pub) :
    PublicShareFormat I pub ∧ (IdealShare prims I ctx nonce b key alpha beta e pub' → pub = pub') := by
  obtain ⟨h1, h2⟩ := h
  refine ⟨⟨h1, fun level hl => ?_⟩, fun ⟨h1', h2'⟩ => ?_⟩
  · obtain ⟨cw, h3, h4⟩ := h2 ⟨level, hl⟩
    obtain ⟨f1, f2, v, f3, f4⟩ := idealWord_format (hb ⟨level, hl⟩) (he ⟨level, hl⟩) h4
    exact ⟨cw, v, h3, f1, f2, f3, f4⟩
  · have key : ∀ level ≤ I.bits, ∀ i < level, pub[i]? = pub'[i]? := by
      intro level
      induction level with
      | zero => intro _ i hi; omega
      | succ n ih =>
        intro hn i hi
        rcases Nat.lt_succ_iff_lt_or_eq.1 hi with h | rfl
        · exact ih (by omega) i h
        · obtain ⟨cw, c1, c2⟩ := h2 ⟨i, by omega⟩
          obtain ⟨cw', c1', c2'⟩ := h2' ⟨i, by omega⟩
          rw [c1, c1', idealWord_unique (ih (by omega)) c2 c2']
    refine List.ext_getElem? fun i => ?_
    by_cases hi : i < I.bits
    · exact key _ le_rfl i hi
    · rw [List.getElem?_eq_none (by omega), List.getElem?_eq_none (by omega)]

/-- C62: there are finitely many expansions, so that the numbers compare probabilities. -/
theorem C62_finite : (expansions I).Finite := by
  have : expansions I = Set.pi Set.univ fun level : Fin I.bits => {e : Expansion (I.currentField level) | e.Sized I.valueLen} := by
    ext e; simp [expansions]
  rw [this]
  exact Set.Finite.pi fun level => finite_sized _ _

/-- C62: two points and two families of values give the same distribution of the public share. -/
theorem C62_hiding {alpha alpha' : List Bool} (ha : alpha.length = I.bits) (ha' : alpha'.length = I.bits)
    {beta beta' : (level : Fin I.bits) → List (Fk (I.currentField level))}
    (hb : ∀ level, (beta level).length = I.valueLen) (hb' : ∀ level, (beta' level).length = I.valueLen)
    {pub : List CorrectionWord} (hv : HasValues prims I ctx nonce pub key b alpha)
    (hv' : HasValues prims I ctx nonce pub key b alpha') :
    {e ∈ expansions I | IdealShare prims I ctx nonce b key alpha beta e pub}.ncard =
    {e ∈ expansions I | IdealShare prims I ctx nonce b key alpha' beta' e pub}.ncard := by
  by_cases hp : PublicShareFormat I pub
  · rw [C62_uniform prims I ctx nonce b key ha hb hp hv, C62_uniform prims I ctx nonce b key ha' hb' hp hv']
  · have h1 : {e ∈ expansions I | IdealShare prims I ctx nonce b key alpha beta e pub} = ∅ := by
      ext e
      simp only [Set.mem_ofPred_eq, Set.mem_empty_iff_false, iff_false]
      rintro ⟨h1, h2⟩
      exact hp (C62_function (pub' := pub) prims I ctx nonce b key hb h1 h2).1
    have h2 : {e ∈ expansions I | IdealShare prims I ctx nonce b key alpha' beta' e pub} = ∅ := by
      ext e
      simp only [Set.mem_ofPred_eq, Set.mem_empty_iff_false, iff_false]
      rintro ⟨h1, h2⟩
      exact hp (C62_function (pub' := pub) prims I ctx nonce b key hb' h1 h2).1
    rw [h1, h2]

end

/- Non-vacuity: a public share computed by `gen` has the right format, the first Aggregator has values at the prefixes
of the programmed point `10` and of `01`, and so for both points the public share arises from `(2 ^ 127) ^ 2`
expansions. -/
example : ∃ (pub : List CorrectionWord) (key : Bytes)
    (beta beta' : (level : Fin 2) → List (Fk ((⟨1, 2⟩ : Idpf).currentField level))),
    PublicShareFormat ⟨1, 2⟩ pub ∧
    HasValues toyPrims ⟨1, 2⟩ [1] (List.replicate 16 3) pub key 0 [true, false] ∧
    HasValues toyPrims ⟨1, 2⟩ [1] (List.replicate 16 3) pub key 0 [false, true] ∧
    (∀ level, (beta level).length = 1) ∧ (∀ level, (beta' level).length = 1) ∧ beta ≠ beta' ∧
    {e ∈ expansions ⟨1, 2⟩ | IdealShare toyPrims ⟨1, 2⟩ [1] (List.replicate 16 3) 0 key [true, false] beta e pub}.ncard =
      (2 ^ 127) ^ 2 ∧
    {e ∈ expansions ⟨1, 2⟩ | IdealShare toyPrims ⟨1, 2⟩ [1] (List.replicate 16 3) 0 key [false, true] beta' e pub}.ncard =
      (2 ^ 127) ^ 2 := by
  have run : (do
      let (pub, keys) ← (⟨1, 2⟩ : Idpf).gen toyPrims 9 [true, false] [[5]] [7] [1] (List.replicate 16 3)
        (List.replicate 16 7 ++ List.replicate 16 8)
      let key ← getI keys 0
      pyAssert (key.length = 16)
      let y0 ← (⟨1, 2⟩ : Idpf).eval toyPrims 9 0 pub key 0 [[false]] [1] (List.replicate 16 3)
      let y1 ← (⟨1, 2⟩ : Idpf).eval toyPrims 9 0 pub key 1 [[false, true]] [1] (List.replicate 16 3)
      return (y0.length, y1.length) : Res (ℕ × ℕ)) = .ok (1, 1) := by decide +kernel
  simp only [Except.bind_eq_ok] at run
  obtain ⟨⟨pub, keys⟩, h, key, hk, _, hk16, y0, e0, y1, e1, -⟩ := run
  rw [pyAssert_eq_ok, decide_eq_true_eq] at hk16
  obtain ⟨key', _, beta, hk', -, hbeta, hv, e, he, -, hs⟩ := C62_gen toyPrims ⟨1, 2⟩ [1] (List.replicate 16 3) 0
    (by decide) (by decide) (by decide) (by decide) h (by decide)
  rw [getI_eq_ok, hk'] at hk
  obtain rfl := Option.some.inj hk
  have hf := (C62_function (pub' := pub) toyPrims ⟨1, 2⟩ [1] (List.replicate 16 3) 0 key'
    (fun level => (hbeta level).2) he hs).1
  have hp : ∀ cw ∈ pub, cw.seedCw.length = 16 := by
    intro cw hcw
    obtain ⟨i, hi, rfl⟩ := List.getElem_of_mem hcw
    obtain ⟨cw', _, h1, h2, -⟩ := hf.2 i (hf.1 ▸ hi)
    rw [List.getElem?_eq_getElem hi] at h1
    exact Option.some.inj h1 ▸ h2
  have hv' : HasValues toyPrims ⟨1, 2⟩ [1] (List.replicate 16 3) pub key' 0 [false, true] := by
    intro level hl
    simp only at hl
    interval_cases level
    · have := C56_eval (j := 0) (level := 0) toyPrims (by decide) ⟨1, 2⟩ (by decide) hk16 hp e0
      cases this with
      | cons h _ => exact ⟨_, h⟩
    · have := C56_eval (j := 0) (level := 1) toyPrims (by decide) ⟨1, 2⟩ (by decide) hk16 hp e1
      cases this with
      | cons h _ => exact ⟨_, h⟩
  refine ⟨pub, key', beta, fun level => (beta level).map (· + 1), hf, hv, hv', fun level => (hbeta level).2,
    fun level => by simpa using (hbeta level).2, fun hc => ?_,
    C62_uniform toyPrims ⟨1, 2⟩ [1] (List.replicate 16 3) 0 key' rfl (fun level => (hbeta level).2) hf hv,
    C62_uniform toyPrims ⟨1, 2⟩ [1] (List.replicate 16 3) 0 key' rfl (fun level => by simpa using (hbeta level).2) hf hv'⟩
  have h0 := congrFun hc (0 : Fin 2)
  have h1 := (hbeta 0).2
  obtain ⟨x, hx⟩ := List.length_eq_one_iff.1 h1
  rw [hx] at h0
  simp at h0

end Vdaf
