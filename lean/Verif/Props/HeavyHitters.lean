import Verif.Proofs.HeavyOnce
import Verif.Props.Poplar1Main

/-!
# Property C83: the heavy hitters protocol

The draft describes how Poplar1 is used to find the strings that at least `T` Clients hold (`Spec.heavyHitters`).  With honest
Clients the result is exactly these strings.  With malicious Clients, each of them can change each count by at most one (unless
the verification randomness falls in a small set), so no string of `T` honest Clients is missed, and every string in
the result is held by at least `T` minus the number of the malicious Clients. -/

namespace Vdaf

section
variable {prims : Prims} {fuel : ℕ}

/-- C83, honest Clients: the protocol never fails (unless the sampler runs out of its bound); all the aggregation parameters are
valid (`heavyLoop` raises otherwise); and the result has the strings that occur at least `T` times in the batch, without
repetitions and in lexicographic order. -/
theorem C83_honest {bits : ℕ} {P : Poplar1} (hP : Poplar1.init bits = .ok P) (h16 : bits ≤ 2 ^ 16) (hf : fuel < 2 ^ 120)
    {verifyKey ctx : Bytes} (hk : verifyKey.length = 32) (hctx : ctx.length + 8 < 2 ^ 16)
    (batch : List (List Bool × Bytes × Bytes))
    (hbatch : ∀ m ∈ batch, m.1.length = bits ∧ m.2.1.length = 16 ∧ m.2.2.length = 128)
    (hsmall : batch.length < PyField.modulus Field64) (T : ℕ) :
    Spec.heavyHitters bits (P.vdaf prims fuel).isValid
        (fun a => runVdaf (P.vdaf prims fuel) verifyKey a ctx batch) T = .error .fuel ∨
    ∃ hist hh, Spec.heavyHitters bits (P.vdaf prims fuel).isValid
        (fun a => runVdaf (P.vdaf prims fuel) verifyKey a ctx batch) T = .ok (hist, hh) ∧
      hh.Pairwise Spec.LexLt ∧ T * hh.length ≤ batch.length ∧ ∀ s, s ∈ hh ↔ s.length = bits ∧ T ≤ (batch.map Prod.fst).count s := by
  have hb := (Poplar1.init_ok hP).2
  have hrun : ∀ a : Poplar1AggParam, a.1 < bits → a.2.Pairwise Spec.LexLt → (∀ p ∈ a.2, p.length = a.1 + 1) →
      Good (fun e => e = .fuel) (runVdaf (P.vdaf prims fuel) verifyKey a ctx batch) fun cs =>
        cs = a.2.map fun p => Spec.countPrefix (batch.map Prod.fst) p := by
    intro a h1 h2 h3
    have hnd : a.2.Nodup := h2.imp fun {p q} h1 h2 => by subst h2; exact lexLt_irrefl _ h1
    rcases C33_exact prims hf hP h1 (by omega) hnd h3 hk hctx batch hbatch hsmall with h | h
    · rw [h]
      rfl
    · rw [h]
      rfl
  have := Poplar1.heavyHitters_good (T := T) hb (lo := Spec.countPrefix (batch.map Prod.fst))
    (hi := Spec.countPrefix (batch.map Prod.fst)) (N := batch.length)
    (Poplar1.count_mono _) fun a h1 h2 h3 => (hrun a h1 h2 h3).mono fun cs _ h => by rw [h, List.length_map]
  rcases this.cases with ⟨⟨hist, hh⟩, h, h1, h2, h3, h4⟩ | ⟨e, h, rfl⟩
  · right
    obtain ⟨h5, h6, h7⟩ := h4 fun a ha cs hcs => by
      obtain ⟨e1, e2, e3⟩ := h1 a ha
      have := hrun a e1 e2 e3
      rw [hcs] at this
      have : cs = _ := this
      subst this
      refine ⟨fun p c hpc => ?_, ?_⟩
      · obtain ⟨i, hi, hpc⟩ := List.mem_iff_getElem.1 hpc
        simp only [List.getElem_zip, List.getElem_map, Prod.mk.injEq] at hpc
        obtain ⟨rfl, rfl⟩ := hpc
        exact ⟨le_rfl, le_rfl⟩
      · have := Poplar1.sum_countPrefix (e2.imp fun {p q} h1 h2 => by subst h2; exact lexLt_irrefl _ h1) e3
          (batch.map Prod.fst)
        simpa using this
    have hfull : ∀ s : List Bool, s.length = bits →
        Spec.countPrefix (batch.map Prod.fst) s = (batch.map Prod.fst).count s := by
      intro s hs
      refine Poplar1.count_full fun m hm => ?_
      obtain ⟨x, hx, rfl⟩ := List.mem_map.1 hm
      rw [hs, (hbatch x hx).1]
    refine ⟨hist, hh, h, h2, h7, fun s => ⟨fun hs => ⟨h3 s hs, ?_⟩, fun ⟨hs, ht⟩ => h5 s hs ?_⟩⟩
    · rw [← hfull s (h3 s hs)]
      exact h6 s hs
    · rw [hfull s hs]
      exact ht
  · exact .inl h

-- two Clients of three hold one string, and the threshold is 2
example : (do
    let P ← Poplar1.init 2
    let report := fun (m : List Bool) (n : UInt8) => (m, List.replicate 16 n, List.replicate 128 (n + 7))
    let batch := [report [true, false] 1, report [false, true] 2, report [true, false] 3]
    Spec.heavyHitters 2 (P.vdaf toyPrims 40).isValid
      (fun a => runVdaf (P.vdaf toyPrims 40) (List.replicate 32 1) a [1] batch) 2) =
    .ok ([(0, [[false], [true]]), (1, [[true, false], [true, true]])], [[true, false]]) := by decide +kernel

/-- C83, malicious Clients: `meas r` is the measurement of the report `r` if its Client is honest, and `none` if it is not.  For
each report and aggregation parameter, there is a set `Bad` with a fraction of at most `2 / |F|` of the possible verification
randomness.  The protocol never fails; and if the verification randomness of each malicious report is not in `Bad` for any of the
aggregation parameters that were used, and verification of the honest reports does not run out of its bound, then
- the strings that at least `T` honest Clients hold are in the result,
- at least `T` minus the number of malicious reports honest Clients hold a string in the result,
- the number of strings in the result is at most the number of reports divided by `T`. -/
theorem C83_malicious {bits : ℕ} {P : Poplar1} (hP : Poplar1.init bits = .ok P) (h16 : bits ≤ 2 ^ 16) (hf : fuel < 2 ^ 120)
    {ctx : Bytes} (hctx : ctx.length + 8 < 2 ^ 16) (reports : List Spec.Poplar1Report)
    (meas : Spec.Poplar1Report → Option (List Bool))
    (hmeas : ∀ r ∈ reports, ∀ m, meas r = some m → m.length = bits ∧ Spec.FromHonestClient P prims fuel ctx r m)
    (hsmall : reports.length < PyField.modulus Field64) :
    ∃ Bad : Spec.Poplar1Report → (a : Poplar1AggParam) → Set (Fin a.2.length → Fk (P.idpf.currentField a.1)),
      (∀ r a, (Bad r a).ncard ≤ 2 * PyField.modulus (Fk (P.idpf.currentField a.1)) ^ (a.2.length - 1)) ∧
      ∀ (T : ℕ) (verifyKey : Bytes), verifyKey.length = 32 → ∃ hist hh,
        Spec.heavyHitters bits (P.vdaf prims fuel).isValid (Spec.poplar1Counts P prims fuel verifyKey ctx reports) T =
          .ok (hist, hh) ∧ hh.Pairwise Spec.LexLt ∧ (∀ s ∈ hh, s.length = bits) ∧
        ((∀ a ∈ hist, ∀ r ∈ reports, meas r = none → ∀ v,
            Spec.poplar1VerifyRand P prims fuel verifyKey ctx r.nonce a.1 a.2.length = .ok (List.ofFn v) → v ∉ Bad r a) →
          (∀ a ∈ hist, ∀ r ∈ reports, meas r ≠ none →
            Spec.poplar1Verify P prims fuel verifyKey ctx a r.nonce r.pub r.share0 r.share1 ≠ .error .fuel) →
          (∀ s, s.length = bits → T ≤ (reports.filterMap meas).count s → s ∈ hh) ∧
          (∀ s ∈ hh, T ≤ (reports.filterMap meas).count s + (reports.filter fun r => (meas r).isNone).length) ∧
          T * hh.length ≤ reports.length) := by
  classical
  have hbad := fun (r : Spec.Poplar1Report) (a : Poplar1AggParam) =>
    C34_sketch_soundness prims fuel P a.1 a.2 ctx r.nonce r.pub r.share0 r.share1
  choose Bad hcard hsound using hbad
  refine ⟨Bad, hcard, fun T vk hvk => ?_⟩
  obtain ⟨hist, hh, h1, h2, h3, h4⟩ := Poplar1.heavy_of_once (prims := prims) (vk := vk) hP h16 hf hctx hvk hsmall T
  refine ⟨hist, hh, h1, h2, h3, fun hrand hfuel => h4 meas hmeas (fun a ha r hr hm o ho => ?_) hfuel⟩
  obtain ⟨o0, o1⟩ := o
  obtain ⟨u0, u1, u, v, rfl, rfl, hsum, hlen, hv, hz⟩ := hsound r a vk _ _ (Poplar1.verify_succeeds ho)
  exact ⟨_, u0, u1, u, rfl, hlen, hsum, hz.resolve_right (hrand a ha r hr hm v hv)⟩

-- two honest Clients hold a string, a third one another string; the fourth, malicious, report combines input shares of two
-- reports: with the threshold 2 the result is the string of the first two, and the verification of all the honest reports succeeds
example : (do
    let P ← Poplar1.init 2
    let report := fun (m : List Bool) (n : UInt8) => do
      let nonce := List.replicate 16 n
      let (pub, ish) ← P.shard toyPrims 40 [1] m nonce (List.replicate 128 (n + 7))
      return (⟨nonce, pub, ← getI ish 0, ← getI ish 1⟩ : Spec.Poplar1Report)
    let r1 ← report [true, false] 1
    let r2 ← report [true, false] 2
    let r3 ← report [false, true] 3
    let honest := fun a (r : Spec.Poplar1Report) =>
      (Spec.poplar1Verify P toyPrims 40 (List.replicate 32 1) [1] a r.nonce r.pub r.share0 r.share1).toOption.isSome
    let (hist, hh) ← Spec.heavyHitters 2 (P.vdaf toyPrims 40).isValid
      (Spec.poplar1Counts P toyPrims 40 (List.replicate 32 1) [1] [r1, r2, r3, { r3 with share0 := r1.share0 }]) 2
    return (hh, hist.all fun a => [r1, r2, r3].all (honest a))) = .ok ([[true, false]], true) := by decide +kernel

end

end Vdaf
