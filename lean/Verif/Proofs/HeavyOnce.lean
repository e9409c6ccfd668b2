import Verif.Proofs.HeavyHitters
import Verif.Spec.Poplar1Game
import Verif.Props.Poplar1Main

/-! # The heavy hitters protocol with reports that count at most once -/

namespace Vdaf.Poplar1

theorem once_zeroOrUnit {κ : Kind} {n : ℕ} {u0 u1 u : List (Fk κ)} (hl : u.length = n) (hs : Spec.IsSum ![u0, u1] u)
    (h : Spec.CountsAtMostOnce n (⟨κ, u0⟩, ⟨κ, u1⟩)) : Spec.ZeroOrUnit u := by
  obtain ⟨κ', v0, v1, v, he, hl', hs', hz⟩ := h
  cases he
  have : u = v := by
    refine List.ext_getElem (hl.trans hl'.symm) fun i hi hi' => ?_
    have h1 := (isSum_iff.1 hs).2 i
    have h2 := (isSum_iff.1 hs').2 i
    rw [← h2, coef_of_lt hi, coef_of_lt hi'] at h1
    exact h1
  rwa [this]

/-- If the malicious reports count at most once, the result is right. -/
theorem heavy_of_once {prims : Prims} {fuel : ℕ} {bits : ℕ} {P : Poplar1} (hP : Poplar1.init bits = .ok P) (h16 : bits ≤ 2 ^ 16)
    (hf : fuel < 2 ^ 120) {vk ctx : Bytes} (hctx : ctx.length + 8 < 2 ^ 16) (hvk : vk.length = 32)
    {reports : List Spec.Poplar1Report} (hsmall : reports.length < PyField.modulus Field64) (T : ℕ) : ∃ hist hh,
      Spec.heavyHitters bits (P.vdaf prims fuel).isValid (Spec.poplar1Counts P prims fuel vk ctx reports) T = .ok (hist, hh) ∧
      hh.Pairwise Spec.LexLt ∧ (∀ s ∈ hh, s.length = bits) ∧
      ∀ meas : Spec.Poplar1Report → Option (List Bool),
        (∀ r ∈ reports, ∀ m, meas r = some m → m.length = bits ∧ Spec.FromHonestClient P prims fuel ctx r m) →
        (∀ a ∈ hist, ∀ r ∈ reports, meas r = none → ∀ o,
          Spec.poplar1Verify P prims fuel vk ctx a r.nonce r.pub r.share0 r.share1 = .ok o →
            Spec.CountsAtMostOnce a.2.length o) →
        (∀ a ∈ hist, ∀ r ∈ reports, meas r ≠ none →
          Spec.poplar1Verify P prims fuel vk ctx a r.nonce r.pub r.share0 r.share1 ≠ .error .fuel) →
        (∀ s, s.length = bits → T ≤ (reports.filterMap meas).count s → s ∈ hh) ∧
        (∀ s ∈ hh, T ≤ (reports.filterMap meas).count s + (reports.filter fun r => (meas r).isNone).length) ∧
        T * hh.length ≤ reports.length := by
  classical
  have hb := (init_ok hP).2
  -- what each report adds, whatever it is
  have hadds : ∀ (a : Poplar1AggParam) (r : Spec.Poplar1Report), ∃ e : ℕ → ℕ, Adds P prims fuel vk ctx a r e ∧
      ((∀ o, Spec.poplar1Verify P prims fuel vk ctx a r.nonce r.pub r.share0 r.share1 = .ok o →
          Spec.CountsAtMostOnce a.2.length o) → ∀ n, ∑ i ∈ Finset.range n, e i ≤ 1) := by
    intro a r
    rcases hres : Spec.poplar1Verify P prims fuel vk ctx a r.nonce r.pub r.share0 r.share1 with err | ⟨o0, o1⟩
    · exact ⟨fun _ => 0, .inr ⟨⟨err, hres⟩, fun _ => rfl⟩, fun _ n => by simp⟩
    · obtain ⟨u0, u1, u, v, rfl, rfl, hsum, hlen, -, -⟩ := good_or_badRand (verify_succeeds hres)
      obtain ⟨hl, hc⟩ := isSum_iff.1 hsum
      have h0 := hl 0
      have h1 := hl 1
      simp only [Fin.sum_univ_two, Matrix.cons_val_zero, Matrix.cons_val_one] at hc h0 h1
      by_cases hzu : Spec.ZeroOrUnit u
      · obtain ⟨e, he, hs⟩ := zeroOrUnit_nat hzu
        exact ⟨e, .inl ⟨u0, u1, hres, by omega, by omega, fun i _ => by rw [← hc, he]⟩, fun _ => hs⟩
      · refine ⟨fun i => PyField.toNat (coef u i), .inl ⟨u0, u1, hres, by omega, by omega, fun i _ => ?_⟩, fun h => ?_⟩
        · rw [← hc, PyField.natCast_toNat]
        · exact absurd (once_zeroOrUnit hlen hsum (h _ rfl)) hzu
  choose e0 he0 hb0 using hadds
  have hmod : ∀ a : Poplar1AggParam, PyField.modulus Field64 ≤ PyField.modulus (Fk (P.idpf.currentField a.1)) := by
    intro a
    obtain ⟨rfl, -⟩ := init_ok hP
    rw [← levelModulus_eq]
    unfold Spec.levelModulus
    split
    · exact le_rfl
    · decide +kernel
  have hgood := fun meas : Spec.Poplar1Report → Option (List Bool) =>
    heavyHitters_good (T := T) hb (E := fun _ => False) (count := Spec.poplar1Counts P prims fuel vk ctx reports)
    (lo := Spec.countPrefix (reports.filterMap meas))
    (hi := fun p => Spec.countPrefix (reports.filterMap meas) p + (reports.filter fun r => (meas r).isNone).length)
    (N := reports.length) (count_mono _) fun a _ _ _ => by
      rw [counts_eq (e := e0 a) fun r _ => he0 a r]
      exact Good.ok (by simp)
  rcases (hgood fun _ => none).cases with ⟨⟨hist, hh⟩, h, h1, h2, h3, -⟩ | ⟨err, -, h⟩
  swap
  · exact h.elim
  refine ⟨hist, hh, h, h2, h3, fun meas hmeas hrand hfuel => ?_⟩
  have h4 := hgood meas
  rw [h] at h4
  obtain ⟨-, -, -, h4⟩ := h4
  have hfull : ∀ s : List Bool, s.length = bits →
      Spec.countPrefix (reports.filterMap meas) s = (reports.filterMap meas).count s := by
    intro s hs
    refine count_full fun m hm => ?_
    obtain ⟨r, hr, hm⟩ := List.mem_filterMap.1 hm
    rw [hs, (hmeas r hr m hm).1]
  obtain ⟨h5, h6, h7⟩ := h4 fun a ha cs hcs => by
    obtain ⟨e1, e2, e3⟩ := h1 a ha
    have hnd : a.2.Nodup := e2.imp fun {p q} h1 h2 => by subst h2; exact lexLt_irrefl _ h1
    obtain ⟨e, he⟩ : ∃ e : Spec.Poplar1Report → ℕ → ℕ, ∀ r, e r = match meas r with
      | some m => fun i => if h : i < a.2.length then (if a.2[i].isPrefixOf m then 1 else 0) else 0
      | none => e0 a r := ⟨_, fun _ => rfl⟩
    have hA : ∀ r ∈ reports, Adds P prims fuel vk ctx a r (e r) := by
      intro r hr
      rw [he r]
      rcases hm : meas r with _ | m
      · exact he0 a r
      · dsimp only
        obtain ⟨hml, hn, rand, hrl, hs⟩ := hmeas r hr m hm
        have hfu := hfuel a ha r hr (by simp [hm])
        have hv2 : P.idpf.valueLen = 2 ∧ P.idpf.bits = bits := by
          obtain ⟨rfl, -⟩ := init_ok hP
          exact ⟨rfl, rfl⟩
        have hg := shard_good (P := P) (prims := prims) hf (by omega) hv2.1 hctx (hml.trans hv2.2.symm) hn hrl
        rw [hs] at hg
        obtain ⟨t0, t1, beta, hteq, H⟩ := hg
        simp only [List.cons.injEq, and_true] at hteq
        obtain ⟨rfl, rfl⟩ := hteq
        rcases (honest_verify (P := P) (vk := vk) hf hctx hv2.1 H (level := a.1) (by omega) (by omega) hnd e3 hvk).cases with
          ⟨o, ho, u0, u1, rfl, l0, l1, hsum⟩ | ⟨err, ho, rfl⟩
        · refine .inl ⟨u0, u1, ho, l0, l1, fun i hi => ?_⟩
          dsimp only
          rw [hsum i hi, dif_pos hi]
          have hp := e3 _ (List.getElem_mem hi)
          simp only [List.isPrefixOf_iff_prefix, List.prefix_iff_eq_take, hp]
          split <;> simp
        · exact absurd ho hfu
    rw [counts_eq hA] at hcs
    cases hcs
    refine counts_bounded (fun r hr => ?_) (fun r hr m hm i hi => ?_) (hsmall.trans_le (hmod a))
    · rw [he r]
      rcases hm : meas r with _ | m
      · exact hb0 a r (hrand a ha r hr hm) _
      · have := indicator_sum hnd e3 m
        rw [Finset.sum_range]
        simp only [Fin.is_lt, dif_pos]
        rw [← Fin.sum_univ_fun_getElem] at this
        exact this
    · rw [he r, hm]
      dsimp only
      rw [dif_pos hi]
  refine ⟨fun s hs ht => h5 s hs (by rw [hfull s hs]; exact ht), fun s hs => ?_, h7⟩
  have := h6 s hs
  rwa [hfull s (h3 s hs)] at this

end Vdaf.Poplar1
