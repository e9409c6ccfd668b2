import Verif.Proofs.Poplar1Run
import Verif.Proofs.Poplar1Sound

/-! # Poplar1: the sketch of a report for two verification keys -/

namespace Vdaf.Poplar1
open Finset
variable {P : Poplar1} {prims : Prims} {fuel : ℕ}

theorem sum_lookup {κ : Kind} (p : List Bool) : ∀ (ps : List (List Bool)) (r : List (Fk κ)), ps.Nodup → r.length = ps.length →
    ∑ i ∈ range ps.length, (if ps[i]? = some p then 1 else 0) * coef r i = ((ps.zip r).lookup p).getD 0 := by
  intro ps
  induction ps with
  | nil => intro r _ _; simp
  | cons q ps ih =>
    intro r hn hl
    obtain ⟨x, r, rfl⟩ : ∃ x r', r = x :: r' := by
      cases r with
      | nil => simp at hl
      | cons x r => exact ⟨x, r, rfl⟩
    rw [List.length_cons, sum_range_succ']
    have hc0 : coef (x :: r) 0 = x := rfl
    have hcs : ∀ i, coef (x :: r) (i + 1) = coef r i := fun i => rfl
    simp only [List.getElem?_cons_succ, List.getElem?_cons_zero, Option.some.injEq, List.zip_cons_cons, hc0, hcs]
    rw [ih r (List.nodup_cons.1 hn).2 (by simpa using hl)]
    by_cases h : q = p
    · subst h
      have : (ps.zip r).lookup q = none := by
        rw [List.lookup_eq_none_iff]
        rintro ⟨a, b⟩ hab
        have := (List.of_mem_zip hab).1
        simp only [bne_iff_ne, ne_eq]
        rintro rfl
        exact (List.nodup_cons.1 hn).1 this
      simp [this, List.lookup]
    · have h' : (p == q) = false := by simpa using fun e => h e.symm
      simp [List.lookup, h', h]

/-- The first element of the message of the first round -/
theorem first_message (hf : fuel < 2 ^ 120) (hb : 0 < P.idpf.bits) (hv : P.idpf.valueLen = 2) {ctx : Bytes}
    (hc : Idpf.CtxOk ctx) {alpha : List Bool} (ha : alpha.length = P.idpf.bits) {nonce rand : Bytes}
    (hn : nonce.length = 16) (hr : rand.length = 128) {pub : List CorrectionWord} {s0 s1 : Poplar1InputShare}
    (hs : P.shard prims fuel ctx alpha nonce rand = .ok (pub, [s0, s1])) {level : ℕ} (hl : level < P.idpf.bits) :
    ∃ a, ∀ (vk : Bytes) (prefixes : List (List Bool)) r st0 sh0 st1 sh1 z, prefixes.Nodup →
      (∀ p ∈ prefixes, p.length = level + 1) →
      Spec.poplar1VerifyRand P prims fuel vk ctx nonce level prefixes.length = .ok r →
      P.verifyInit prims fuel vk ctx 0 (level, prefixes) nonce pub s0 = .ok (st0, sh0) →
      P.verifyInit prims fuel vk ctx 1 (level, prefixes) nonce pub s1 = .ok (st1, sh1) →
      sharesToMessage ctx (level, prefixes) [sh0, sh1] = .ok (some ⟨P.idpf.currentField level, z⟩) →
      coef z 0 = a + ((prefixes.zip r).lookup (alpha.take (level + 1))).getD 0 := by
  have hg := shard_good (prims := prims) hf hb hv hc ha hn hr
  rw [hs] at hg
  obtain ⟨s0', s1', beta, hish, H⟩ := hg
  cases hish
  obtain ⟨N, hN⟩ := H.gen
  obtain ⟨o0, o1, q0, q1, lo0, lo1, a, b, c, A0, B0, A1, B1, hoff, hab0, hab1, hA, hB⟩ := H.corr level hl
  obtain ⟨a0, b0, c0, rfl⟩ := list_three lo0
  obtain ⟨a1, b1, c1, rfl⟩ := list_three lo1
  refine ⟨a0 + a1, ?_⟩
  intro vk prefixes r st0 sh0 st1 sh1 z hnd hpl hrand h0 h1 hz
  obtain ⟨g0, g1, hsum⟩ := hN.eval_good hf hc H.key0 H.key1 hl hnd hpl
  rw [verifyInit_iff (by decide)] at h0 h1
  obtain ⟨v0, ⟨x0, x1, x2⟩, A, B, r0, R0, rfl, rfl⟩ := h0
  obtain ⟨v1, ⟨y0, y1, y2⟩, A', B', r1, R1, rfl, rfl⟩ := h1
  obtain rfl : r = r0 := by simpa using hrand.symm.trans (verifyRand_eq R0.rand)
  obtain rfl : r = r1 := by simpa using hrand.symm.trans (verifyRand_eq R1.rand)
  have e0 := q0.symm.trans R0.corr
  have e1 := q1.symm.trans R1.corr
  simp only [Except.ok.injEq, List.cons.injEq, and_true] at e0 e1
  obtain ⟨rfl, rfl, rfl⟩ := e0
  obtain ⟨rfl, rfl, rfl⟩ := e1
  rw [message_three] at hz
  injection hz with hz
  injection hz with hz
  injection hz with _ hz
  subst hz
  have l0 : v0.length = prefixes.length := by
    rw [R0.eval] at g0; exact g0.1
  have l1 : v1.length = prefixes.length := by
    rw [R1.eval] at g1; exact g1.1
  have lr : r.length = prefixes.length := verifyRand_length R0.rand
  rw [← sum_lookup _ _ _ hnd lr]
  show (sums (a0, b0, c0) v0 r).1 + (sums (a1, b1, c1) v1 r).1 = _
  unfold sums
  dsimp only
  rw [add_add_add_comm, ← sum_add_distrib, lr]
  refine congrArg _ (sum_congr rfl fun i hi => ?_)
  have hi := mem_range.1 hi
  rw [← add_mul]
  have := hsum v0 v1 R0.eval R1.eval i hi (by omega) (by omega) 0 (by omega)
  refine congrArg (· * coef r i) ?_
  unfold ent
  rw [List.getD_eq_getElem?_getD, List.getD_eq_getElem?_getD, List.getElem?_eq_getElem (by omega),
    List.getElem?_eq_getElem (by omega), List.getElem?_eq_getElem hi]
  refine Eq.trans this ?_
  rw [H.one level hl]
  simp only [Option.some.injEq]

end Vdaf.Poplar1
