import Verif.Spec.HeavyHitters
import Verif.Proofs.Poplar1Sound
import Verif.Proofs.Poplar1Game
import Verif.Props.Reject
import Verif.Props.Poplar1

/-! # The heavy hitters protocol: proofs -/

namespace Vdaf.Poplar1
open Finset
open Vdaf.Spec (LexLt heavyPrefixes heavyLoop)

theorem lexLt_children {p q : List Bool} (h : LexLt p q) (hl : p.length = q.length) (b b' : Bool) :
    LexLt (p ++ [b]) (q ++ [b']) := by
  rcases h with ⟨t, ht, rfl⟩ | ⟨c, s, t, rfl, rfl⟩
  · have : t.length = 0 := by
      rw [List.length_append] at hl
      omega
    exact absurd (List.length_eq_zero_iff.1 this) ht
  · exact .inr ⟨c, s ++ [b], t ++ [b'], by simp, by simp⟩

theorem pairwise_children {l : List (List Bool)} {n : ℕ} (h : l.Pairwise LexLt) (hl : ∀ p ∈ l, p.length = n) :
    (l.flatMap fun p => [p ++ [false], p ++ [true]]).Pairwise LexLt := by
  rw [List.pairwise_flatMap]
  constructor
  · intro p _
    simp only [List.pairwise_cons, List.mem_singleton, forall_eq, List.not_mem_nil, false_imp_iff, implies_true,
      List.Pairwise.nil, and_true]
    exact .inr ⟨p, [], [], rfl, rfl⟩
  · refine h.imp_of_mem fun {p q} hp hq hlt x hx y hy => ?_
    have := (hl p hp).trans (hl q hq).symm
    simp only [List.mem_cons, List.not_mem_nil, or_false] at hx hy
    rcases hx with rfl | rfl <;> rcases hy with rfl | rfl <;> exact lexLt_children hlt this _ _

theorem heavy_sublist (T : ℕ) (prefixes : List (List Bool)) (counts : List ℕ) :
    (heavyPrefixes T prefixes counts).Sublist prefixes := by
  induction prefixes generalizing counts with
  | nil => simp [heavyPrefixes]
  | cons p l ih =>
    cases counts with
    | nil => simp [heavyPrefixes]
    | cons c cs =>
      have := ih cs
      unfold heavyPrefixes at this ⊢
      simp only [List.zip_cons_cons, List.filter_cons]
      split
      · exact this.cons_cons _
      · exact this.cons _

theorem mem_heavy {T : ℕ} {prefixes : List (List Bool)} {counts : List ℕ} {p : List Bool} :
    p ∈ heavyPrefixes T prefixes counts ↔ ∃ c, (p, c) ∈ prefixes.zip counts ∧ T ≤ c := by
  unfold heavyPrefixes
  simp

theorem exists_count {prefixes : List (List Bool)} {counts : List ℕ} (h : counts.length = prefixes.length) {p : List Bool}
    (hp : p ∈ prefixes) : ∃ c, (p, c) ∈ prefixes.zip counts := by
  obtain ⟨i, hi, rfl⟩ := List.mem_iff_getElem.1 hp
  exact ⟨counts[i], List.mem_iff_getElem.2 ⟨i, by simp [h, hi], by simp⟩⟩

theorem heavy_sum (T : ℕ) (prefixes : List (List Bool)) (counts : List ℕ) :
    T * (heavyPrefixes T prefixes counts).length ≤ counts.sum := by
  induction prefixes generalizing counts with
  | nil => simp [heavyPrefixes]
  | cons p l ih =>
    cases counts with
    | nil => simp [heavyPrefixes]
    | cons c cs =>
      have := ih cs
      unfold heavyPrefixes at this ⊢
      simp only [List.zip_cons_cons, List.filter_cons, List.length_map] at this ⊢
      split
      · next h =>
        have : T ≤ c := by simpa using h
        simp only [List.length_cons, List.sum_cons]
        nlinarith
      · simp only [List.sum_cons]
        omega

/-- The counts for an aggregation parameter are between the bounds. -/
def Bounded (lo hi : List Bool → ℕ) (N : ℕ) (a : Poplar1AggParam) (cs : List ℕ) : Prop :=
  (∀ p c, (p, c) ∈ a.2.zip cs → lo p ≤ c ∧ c ≤ hi p) ∧ cs.sum ≤ N

theorem loop_good {count : Poplar1AggParam → Res (List ℕ)} {T bits : ℕ} {lo hi : List Bool → ℕ} {N : ℕ} {E : Err → Prop}
    (hmono : ∀ p q, p <+: q → lo q ≤ lo p)
    (hc : ∀ a : Poplar1AggParam, a.1 < bits → a.2.Pairwise LexLt → (∀ p ∈ a.2, p.length = a.1 + 1) →
      Good E (count a) fun cs => cs.length = a.2.length) :
    ∀ (n level : ℕ) (hist : List Poplar1AggParam) (prefixes : List (List Bool)), level + n + 1 = bits →
      prefixes.Pairwise LexLt → (∀ p ∈ prefixes, p.length = level + 1) → isValid (level, prefixes) hist = .ok true →
      Good E (heavyLoop isValid count T n level hist prefixes) fun r =>
        ∃ new, r.1 = hist ++ new ∧
          (∀ a ∈ new, a.1 < bits ∧ a.2.Pairwise LexLt ∧ ∀ p ∈ a.2, p.length = a.1 + 1) ∧
          r.2.Pairwise LexLt ∧ (∀ s ∈ r.2, s.length = bits) ∧
          ((∀ a ∈ new, ∀ cs, count a = .ok cs → Bounded lo hi N a cs) →
            (∀ s, s.length = bits → s.take (level + 1) ∈ prefixes → T ≤ lo s → s ∈ r.2) ∧ (∀ s ∈ r.2, T ≤ hi s) ∧
            T * r.2.length ≤ N) := by
  intro n
  induction n with
  | zero =>
    intro level hist prefixes hn hp hpl hv
    unfold heavyLoop
    rw [hv]
    simp only [Except.ok_bind']
    rw [raiseIf_of_not (by simp)]
    simp only [Except.ok_bind']
    refine (hc (level, prefixes) (by dsimp only; omega) hp hpl).bind fun cs hcs hlen => Good.ok ?_
    dsimp only at hlen ⊢
    have hsub := heavy_sublist T prefixes cs
    refine ⟨[(level, prefixes)], rfl, ?_, hp.sublist hsub, fun s hs => ?_, fun hb => ?_⟩
    · intro a ha
      rw [List.mem_singleton.1 ha]
      exact ⟨by dsimp only; omega, hp, hpl⟩
    · rw [hpl s (hsub.subset hs)]
      omega
    · obtain ⟨hb, hN⟩ := hb _ (by simp) cs hcs
      refine ⟨fun s hs hm ht => ?_, fun s hs => ?_, (heavy_sum ..).trans hN⟩
      · rw [List.take_of_length_le (by omega)] at hm
        obtain ⟨c, hc⟩ := exists_count hlen hm
        exact mem_heavy.2 ⟨c, hc, ht.trans (hb s c hc).1⟩
      · obtain ⟨c, hc, ht⟩ := mem_heavy.1 hs
        exact ht.trans (hb s c hc).2
  | succ n ih =>
    intro level hist prefixes hn hp hpl hv
    unfold heavyLoop
    rw [hv]
    simp only [Except.ok_bind']
    rw [raiseIf_of_not (by simp)]
    simp only [Except.ok_bind']
    refine (hc (level, prefixes) (by dsimp only; omega) hp hpl).bind fun cs hcs hlen => ?_
    dsimp only at hlen ⊢
    have hsub := heavy_sublist T prefixes cs
    have hheavy : ∀ p ∈ heavyPrefixes T prefixes cs, p.length = level + 1 := fun p h => hpl p (hsub.subset h)
    obtain ⟨next, hnext⟩ : ∃ next, next = (heavyPrefixes T prefixes cs).flatMap fun p => [p ++ [false], p ++ [true]] := ⟨_, rfl⟩
    have hmem : ∀ x, x ∈ next ↔ ∃ p ∈ heavyPrefixes T prefixes cs, ∃ b, x = p ++ [b] := by
      intro x
      rw [hnext]
      simp [or_comm]
    have hp' : next.Pairwise LexLt := hnext ▸ pairwise_children (hp.sublist hsub) hheavy
    have hpl' : ∀ p ∈ next, p.length = level + 1 + 1 := by
      intro x hx
      obtain ⟨p, hp, b, rfl⟩ := (hmem x).1 hx
      simp [hheavy p hp]
    have hv' : isValid (level + 1, next) (hist ++ [(level, prefixes)]) = .ok true := by
      rw [isValid_true_iff]
      refine ⟨hp', ?_⟩
      simp only [List.getLast?_concat, Option.some.injEq, forall_eq']
      refine ⟨by omega, fun x hx => ?_⟩
      obtain ⟨p, hp, b, rfl⟩ := (hmem x).1 hx
      rw [List.take_append_of_le_length (by rw [hheavy p hp]), List.take_of_length_le (by rw [hheavy p hp])]
      exact hsub.subset hp
    rw [← hnext]
    refine (ih (level + 1) _ next (by omega) hp' hpl' hv').mono ?_
    rintro ⟨h', hh⟩ - ⟨new, h1, h2, h3, h4, h5⟩
    dsimp only at h1 h2 h3 h4 h5 ⊢
    refine ⟨(level, prefixes) :: new, by simp [h1], ?_, h3, h4, fun hb => ?_⟩
    · intro a ha
      rcases List.mem_cons.1 ha with rfl | ha
      · exact ⟨by dsimp only; omega, hp, hpl⟩
      · exact h2 a ha
    · obtain ⟨h6, h7, h8⟩ := h5 fun a ha => hb a (by simp [ha])
      refine ⟨fun s hs hm ht => h6 s hs ?_ ht, h7, h8⟩
      obtain ⟨hb, -⟩ := hb _ (by simp) cs hcs
      obtain ⟨c, hc⟩ := exists_count hlen hm
      have hlo := hmono (s.take (level + 1)) s (List.take_prefix _ _)
      have hs' : s.take (level + 1) ∈ heavyPrefixes T prefixes cs := mem_heavy.2 ⟨c, hc, (ht.trans hlo).trans (hb _ c hc).1⟩
      refine (hmem _).2 ⟨_, hs', s[level + 1]'(by omega), ?_⟩
      rw [List.take_succ_eq_append_getElem (by omega)]

theorem heavyHitters_good {count : Poplar1AggParam → Res (List ℕ)} {T bits : ℕ} (hb : 0 < bits) {lo hi : List Bool → ℕ} {N : ℕ} {E : Err → Prop}
    (hmono : ∀ p q, p <+: q → lo q ≤ lo p)
    (hc : ∀ a : Poplar1AggParam, a.1 < bits → a.2.Pairwise LexLt → (∀ p ∈ a.2, p.length = a.1 + 1) →
      Good E (count a) fun cs => cs.length = a.2.length) :
    Good E (Spec.heavyHitters bits isValid count T) fun r =>
      (∀ a ∈ r.1, a.1 < bits ∧ a.2.Pairwise LexLt ∧ ∀ p ∈ a.2, p.length = a.1 + 1) ∧
      r.2.Pairwise LexLt ∧ (∀ s ∈ r.2, s.length = bits) ∧
      ((∀ a ∈ r.1, ∀ cs, count a = .ok cs → Bounded lo hi N a cs) →
        (∀ s, s.length = bits → T ≤ lo s → s ∈ r.2) ∧ (∀ s ∈ r.2, T ≤ hi s) ∧ T * r.2.length ≤ N) := by
  unfold Spec.heavyHitters
  have hp : [[false], [true]].Pairwise LexLt := by
    simp only [List.pairwise_cons, List.mem_singleton, forall_eq, List.not_mem_nil, false_imp_iff, implies_true,
      List.Pairwise.nil, and_true]
    exact .inr ⟨[], [], [], rfl, rfl⟩
  refine (loop_good (hi := hi) (N := N) hmono hc (bits - 1) 0 [] [[false], [true]] (by omega) hp (by simp)
    (isValid_true_iff.2 ⟨hp, by simp⟩)).mono ?_
  rintro ⟨h, hh⟩ - ⟨new, h1, h2, h3, h4, h5⟩
  dsimp only at h1 h2 h3 h4 h5 ⊢
  rw [List.nil_append] at h1
  subst h1
  refine ⟨h2, h3, h4, fun hb' => ?_⟩
  obtain ⟨h6, h7⟩ := h5 hb'
  refine ⟨fun s hs ht => h6 s hs ?_ ht, h7⟩
  cases s with
  | nil => simp at hs; omega
  | cons b s => cases b <;> simp

theorem count_mono (ms : List (List Bool)) (p q : List Bool) (h : p <+: q) : Spec.countPrefix ms q ≤ Spec.countPrefix ms p := by
  unfold Spec.countPrefix
  rw [← List.countP_eq_length_filter, ← List.countP_eq_length_filter]
  refine List.countP_mono_left fun m _ hm => ?_
  rw [List.isPrefixOf_iff_prefix] at hm ⊢
  exact h.trans hm

theorem count_full {ms : List (List Bool)} {s : List Bool} (h : ∀ m ∈ ms, m.length = s.length) :
    Spec.countPrefix ms s = ms.count s := by
  unfold Spec.countPrefix
  rw [← List.countP_eq_length_filter, List.count]
  refine List.countP_congr fun m hm => ?_
  rw [List.isPrefixOf_iff_prefix]
  simp only [beq_iff_eq]
  constructor
  · intro hp
    exact (hp.eq_of_length (h m hm).symm).symm
  · rintro rfl
    exact List.prefix_rfl

theorem indicator_sum {prefixes : List (List Bool)} {n : ℕ} (hnd : prefixes.Nodup) (hpl : ∀ p ∈ prefixes, p.length = n)
    (m : List Bool) : (prefixes.map fun p => if p.isPrefixOf m then 1 else 0).sum ≤ 1 := by
  have h1 : (prefixes.map fun p => if p.isPrefixOf m then 1 else 0) = prefixes.map fun p => if p = m.take n then 1 else 0 := by
    refine List.map_congr_left fun p hp => ?_
    have := hpl p hp
    simp only [List.isPrefixOf_iff_prefix, List.prefix_iff_eq_take, this]
  rw [h1]
  have h2 : (prefixes.map fun p => if p = m.take n then 1 else 0).sum = prefixes.count (m.take n) := by
    clear h1 hnd hpl
    induction prefixes with
    | nil => rfl
    | cons p l ih =>
      rw [List.map_cons, List.sum_cons, ih, List.count_cons]
      by_cases h : p = m.take n
      · simp [h, add_comm]
      · simp [h]
  rw [h2]
  exact List.nodup_iff_count_le_one.1 hnd _

theorem sum_countPrefix {prefixes : List (List Bool)} {n : ℕ} (hnd : prefixes.Nodup) (hpl : ∀ p ∈ prefixes, p.length = n)
    (ms : List (List Bool)) : (prefixes.map fun p => Spec.countPrefix ms p).sum ≤ ms.length := by
  induction ms with
  | nil => simp [Spec.countPrefix]
  | cons m l ih =>
    have h : (prefixes.map fun p => Spec.countPrefix (m :: l) p) =
        prefixes.map fun p => (if p.isPrefixOf m then 1 else 0) + Spec.countPrefix l p := by
      refine List.map_congr_left fun p _ => ?_
      unfold Spec.countPrefix
      rw [List.filter_cons]
      split
      · simp only [List.length_cons]
        omega
      · simp
    rw [h, List.sum_map_add, List.length_cons, add_comm]
    exact Nat.add_le_add ih (indicator_sum hnd hpl m)

section
variable {P : Poplar1} {prims : Prims} {fuel : ℕ} {ctx nonce : Bytes}

theorem honest_verify (hf : fuel < 2 ^ 120) (hc : Idpf.CtxOk ctx) (hv : P.idpf.valueLen = 2) {alpha : List Bool}
    {pub : List CorrectionWord} {s0 s1 : Poplar1InputShare} {beta : (level : ℕ) → List (Fk (P.idpf.currentField level))}
    (H : Honest P prims fuel ctx nonce alpha pub s0 s1 beta) {level : ℕ} (hl : level < P.idpf.bits) (hl16 : level < 2 ^ 16)
    {prefixes : List (List Bool)} (hnd : prefixes.Nodup) (hpl : ∀ p ∈ prefixes, p.length = level + 1) {vk : Bytes}
    (hvk : vk.length = 32) :
    Good (fun e => e = .fuel) (Spec.poplar1Verify P prims fuel vk ctx (level, prefixes) nonce pub s0 s1) fun o =>
      ∃ u0 u1 : List (Fk (P.idpf.currentField level)), o = (⟨_, u0⟩, ⟨_, u1⟩) ∧ u0.length = prefixes.length ∧
        u1.length = prefixes.length ∧ ∀ i (hi : i < prefixes.length),
          coef u0 i + coef u1 i = if prefixes[i] = alpha.take (level + 1) then 1 else 0 := by
  obtain ⟨N, hN⟩ := H.gen
  obtain ⟨g0, g1, hsum⟩ := hN.eval_good hf hc H.key0 H.key1 hl hnd hpl
  obtain ⟨o0, o1, q0, q1, lo0, lo1, a, b, c, A0, B0, A1, B1, hoff, hab0, hab1, hA, hB⟩ := H.corr level hl
  obtain ⟨a0, b0, c0, rfl⟩ := list_three lo0
  obtain ⟨a1, b1, c1, rfl⟩ := list_three lo1
  simp only [List.zipWith_cons_cons, List.zipWith_nil_left, List.cons.injEq, and_true] at hoff
  obtain ⟨rfl, rfl, rfl⟩ := hoff
  have hvr := verifyRand_good (P := P) (prims := prims) (fuel := fuel) (nonce := nonce) hvk hc hl16 prefixes.length
  rw [hv] at g0 g1
  have i0 := verifyInit_good (P := P) (prims := prims) (fuel := fuel) (j := 0) (by decide) g0
    (corr := (a0, b0, c0)) q0 hab0 hvr
  have i1 := verifyInit_good (P := P) (prims := prims) (fuel := fuel) (j := 1) (by decide) g1
    (corr := (a1, b1, c1)) q1 hab1 hvr
  rcases i0.cases with ⟨r0, h0, v0, r, R0, l0, lr, rfl⟩ | ⟨e, h0, rfl⟩
  swap
  · have : Spec.poplar1Verify P prims fuel vk ctx (level, prefixes) nonce pub s0 s1 = .error .fuel := by
      unfold Spec.poplar1Verify
      rw [h0]
      rfl
    rw [this]
    rfl
  rcases i1.cases with ⟨r1, h1, v1, r', R1, l1, lr', rfl⟩ | ⟨e, h1, rfl⟩
  swap
  · have : Spec.poplar1Verify P prims fuel vk ctx (level, prefixes) nonce pub s0 s1 = .error .fuel := by
      unfold Spec.poplar1Verify
      rw [h0, h1]
      rfl
    rw [this]
    rfl
  obtain rfl : r = r' := by simpa using R0.rand.symm.trans R1.rand
  have htot : ∀ i (hi : i < prefixes.length), ∀ t < 2,
      tot v0 v1 i t = if prefixes[i] = alpha.take (level + 1) then coef (beta level) t else 0 := by
    intro i hi t ht
    have := hsum v0 v1 R0.eval R1.eval i hi (by omega) (by omega) t (by omega)
    unfold tot ent
    rw [List.getD_eq_getElem?_getD, List.getD_eq_getElem?_getD, List.getElem?_eq_getElem (by omega),
      List.getElem?_eq_getElem (by omega)]
    exact this
  have hsig : sigma r.length (fun i => tot v0 v1 i 0) (fun i => tot v0 v1 i 1) (fun i => coef r i)
        (a0 + a1) (b0 + b1) (c0 + c1) (A0 + A1) (B0 + B1) = 0 := by
    refine sigma_honest (k := coef (beta level) 1) ?_ ?_ hA hB
    · rw [lr]
      by_cases hm : alpha.take (level + 1) ∈ prefixes
      · right
        obtain ⟨i0, hi0, hm⟩ := List.mem_iff_getElem.1 hm
        refine ⟨i0, hi0, fun i hi => ?_⟩
        rw [htot i hi 0 (by decide), H.one level hl, ← hm]
        by_cases hii : i = i0
        · subst hii; simp
        · rw [if_neg hii, if_neg]
          intro heq
          exact hii ((List.Nodup.getElem_inj_iff hnd).1 heq)
      · left
        intro i hi
        rw [htot i hi 0 (by decide), if_neg]
        intro h
        exact hm (h ▸ List.getElem_mem hi)
    · intro i hi
      rw [htot i (by omega) 0 (by decide), htot i (by omega) 1 (by decide), H.one level hl]
      split <;> simp
  have hse := sigma_eq v0 v1 r a0 b0 c0 a1 b1 c1 A0 B0 A1 B1
  dsimp only at hse
  have hz := (poplar1Verify_of h0 h1).1 (by
    simp only [Nat.cast_zero, Nat.cast_one] at hse
    linear_combination hse + hsig)
  rw [hz]
  refine Good.ok ⟨_, _, rfl, by simp [lr], by simp [lr], fun i hi => ?_⟩
  rw [coef_tab, coef_tab, if_pos (by omega), if_pos (by omega)]
  have := htot i hi 0 (by decide)
  rw [H.one level hl] at this
  exact this

/-- What a report adds to the count of a prefix -/
def Adds (P : Poplar1) (prims : Prims) (fuel : ℕ) (vk ctx : Bytes) (a : Poplar1AggParam) (r : Spec.Poplar1Report) (e : ℕ → ℕ) :
    Prop :=
  (∃ (u0 u1 : List (Fk (P.idpf.currentField a.1))),
      Spec.poplar1Verify P prims fuel vk ctx a r.nonce r.pub r.share0 r.share1 = .ok (⟨_, u0⟩, ⟨_, u1⟩) ∧
      u0.length = a.2.length ∧ u1.length = a.2.length ∧ ∀ i < a.2.length, coef u0 i + coef u1 i = (e i : ℕ)) ∨
    ((∃ err, Spec.poplar1Verify P prims fuel vk ctx a r.nonce r.pub r.share0 r.share1 = .error err) ∧ ∀ i, e i = 0)

theorem counts_eq {vk : Bytes} {a : Poplar1AggParam} {reports : List Spec.Poplar1Report} {e : Spec.Poplar1Report → ℕ → ℕ}
    (he : ∀ r ∈ reports, Adds P prims fuel vk ctx a r (e r)) :
    Spec.poplar1Counts P prims fuel vk ctx reports a = .ok ((List.range a.2.length).map fun i =>
      (reports.map fun r => e r i).sum % PyField.modulus (Fk (P.idpf.currentField a.1))) := by
  obtain ⟨outs, hout⟩ : ∃ outs, outs = reports.filterMap fun r =>
    (Spec.poplar1Verify P prims fuel vk ctx a r.nonce r.pub r.share0 r.share1).toOption := ⟨_, rfl⟩
  have key : (∀ o ∈ outs, o.1.2.length = a.2.length ∧ o.2.2.length = a.2.length) ∧ ∀ i < a.2.length,
      colsum ((outs.map Prod.fst).map (castVec (P.idpf.currentField a.1))) i +
        colsum ((outs.map Prod.snd).map (castVec (P.idpf.currentField a.1))) i =
        (((reports.map fun r => e r i).sum : ℕ) : Fk (P.idpf.currentField a.1)) := by
    subst hout
    induction reports with
    | nil => simp [colsum]
    | cons r l ih =>
      obtain ⟨ih1, ih2⟩ := ih fun r hr => he r (by simp [hr])
      rcases he r (by simp) with ⟨u0, u1, h1, h2, h3, h4⟩ | ⟨⟨err, h1⟩, h2⟩
      · rw [List.filterMap_cons_some (by rw [h1]; rfl)]
        refine ⟨?_, fun i hi => ?_⟩
        · intro o ho
          rcases List.mem_cons.1 ho with rfl | ho
          · exact ⟨h2, h3⟩
          · exact ih1 o ho
        · have := ih2 i hi
          simp only [colsum, List.map_cons, List.sum_cons, castVec_self, Nat.cast_add] at this ⊢
          rw [← h4 i hi, ← this]
          ring
      · rw [List.filterMap_cons_none (by rw [h1]; rfl)]
        refine ⟨ih1, fun i hi => ?_⟩
        rw [ih2 i hi, List.map_cons, List.sum_cons, h2 i, zero_add]
  unfold Spec.poplar1Counts
  rw [← hout]
  dsimp only
  rw [aggregate_eq_merge, aggregate_eq_merge, merge_eq, merge_eq, if_pos (List.forall_mem_map.2 fun o h => (key.1 o h).1),
    if_pos (List.forall_mem_map.2 fun o h => (key.1 o h).2)]
  simp only [Except.ok_bind']
  show P.unshard _ _ outs.length = _
  unfold unshard
  rw [merge_eq, if_pos (by simp)]
  simp only [Except.ok_bind', Except.pure_eq', Except.ok.injEq]
  refine List.ext_getElem (by simp) fun i hi hi' => ?_
  have hi2 : i < a.2.length := by simpa using hi'
  have hk := key.2 i hi2
  simp only [List.getElem_map, tab_getElem, List.map_cons, List.map_nil, castVec_self, List.getElem_range]
  rw [colsum]
  simp only [List.map_cons, List.map_nil, List.sum_cons, List.sum_nil, add_zero, coef_tab, if_pos hi2]
  rw [hk, toNat_natCast_mod]

/-- The entries of a zero vector or unit vector, as numbers -/
theorem zeroOrUnit_nat {F : Type} [Field F] {u : List F} (h : Spec.ZeroOrUnit u) :
    ∃ e : ℕ → ℕ, (∀ i, coef u i = (e i : ℕ)) ∧ ∀ n, ∑ i ∈ range n, e i ≤ 1 := by
  rcases h with h | ⟨i0, hi0, h⟩
  · refine ⟨fun _ => 0, fun i => ?_, fun n => by simp⟩
    rw [h]
    simp only [coef, List.getD_eq_getElem?_getD, List.getElem?_replicate, Nat.cast_zero]
    split <;> rfl
  · refine ⟨fun i => if i = i0 then 1 else 0, fun i => ?_, fun n => ?_⟩
    · rw [h]
      simp only [coef, List.getD_eq_getElem?_getD, List.getElem?_set, List.getElem?_replicate, List.length_replicate]
      by_cases hi : i0 = i
      · subst hi
        simp [hi0]
      · rw [if_neg hi, if_neg (Ne.symm hi)]
        split <;> simp
    · rw [Finset.sum_ite_eq']
      split <;> simp

theorem sum_map_le {α : Type} {l : List α} {f g : α → ℕ} (h : ∀ x ∈ l, f x ≤ g x) : (l.map f).sum ≤ (l.map g).sum := by
  induction l with
  | nil => simp
  | cons x l ih =>
    have := h x (by simp)
    have := ih fun x hx => h x (by simp [hx])
    simp only [List.map_cons, List.sum_cons]
    omega

theorem sum_range_map {α : Type} (l : List α) (f : α → ℕ → ℕ) (n : ℕ) :
    ((List.range n).map fun i => (l.map fun x => f x i).sum).sum = (l.map fun x => ∑ i ∈ range n, f x i).sum := by
  induction n with
  | zero => simp
  | succ n ih =>
    rw [List.range_succ, List.map_append, List.sum_append, ih]
    simp only [Finset.sum_range_succ, List.map_cons, List.map_nil, List.sum_cons, List.sum_nil, add_zero]
    rw [List.sum_map_add]

/-- The bounds of the counts: at least the reports of the honest Clients count, and at most all the others -/
theorem counts_bounded {a : Poplar1AggParam} {reports : List Spec.Poplar1Report} {e : Spec.Poplar1Report → ℕ → ℕ}
    {meas : Spec.Poplar1Report → Option (List Bool)}
    (h1 : ∀ r ∈ reports, ∑ i ∈ range a.2.length, e r i ≤ 1)
    (h2 : ∀ r ∈ reports, ∀ m, meas r = some m → ∀ i (hi : i < a.2.length), e r i = if a.2[i].isPrefixOf m then 1 else 0)
    {M : ℕ} (hM : reports.length < M) :
    Bounded (Spec.countPrefix (reports.filterMap meas))
      (fun p => Spec.countPrefix (reports.filterMap meas) p + (reports.filter fun r => (meas r).isNone).length) reports.length a
      ((List.range a.2.length).map fun i => (reports.map fun r => e r i).sum % M) := by
  have hsum : ∀ i < a.2.length, (reports.map fun r => e r i).sum ≤ reports.length := by
    intro i hi
    have := sum_map_le (l := reports) (f := fun r => e r i) (g := fun _ => 1) fun r hr =>
      (Finset.single_le_sum (f := e r) (fun _ _ => Nat.zero_le _) (Finset.mem_range.2 hi)).trans (h1 r hr)
    simpa using this
  have hmod : ((List.range a.2.length).map fun i => (reports.map fun r => e r i).sum % M) =
      (List.range a.2.length).map fun i => (reports.map fun r => e r i).sum :=
    List.map_congr_left fun i hi => Nat.mod_eq_of_lt ((hsum i (List.mem_range.1 hi)).trans_lt hM)
  have hpt : ∀ i (hi : i < a.2.length),
      Spec.countPrefix (reports.filterMap meas) a.2[i] ≤ (reports.map fun r => e r i).sum ∧
      (reports.map fun r => e r i).sum ≤
        Spec.countPrefix (reports.filterMap meas) a.2[i] + (reports.filter fun r => (meas r).isNone).length := by
    clear hsum hmod hM
    intro i hi'
    induction reports with
    | nil => simp [Spec.countPrefix]
    | cons r l ih =>
      obtain ⟨ih1, ih2⟩ := ih (fun r hr => h1 r (by simp [hr])) (fun r hr => h2 r (by simp [hr]))
      have hr1 := (Finset.single_le_sum (f := e r) (fun _ _ => Nat.zero_le _) (Finset.mem_range.2 hi')).trans
        (h1 r (by simp))
      rcases hm : meas r with _ | m
      · rw [List.filterMap_cons_none hm]
        simp only [List.map_cons, List.sum_cons, List.filter_cons, hm, Option.isNone_none, if_true, List.length_cons]
        omega
      · rw [List.filterMap_cons_some hm]
        have he := h2 r (by simp) m hm i hi'
        simp only [List.map_cons, List.sum_cons, List.filter_cons, hm, Option.isNone_some, Bool.false_eq_true, if_false]
        unfold Spec.countPrefix at ih1 ih2 ⊢
        simp only [List.filter_cons]
        by_cases hp : a.2[i].isPrefixOf m = true
        · rw [if_pos hp] at he ⊢
          simp only [List.length_cons]
          omega
        · rw [if_neg hp] at he ⊢
          omega
  rw [hmod]
  constructor
  · intro p c hpc
    obtain ⟨i, hi, hpc⟩ := List.mem_iff_getElem.1 hpc
    have hi' : i < a.2.length := by simpa using hi
    simp only [List.getElem_zip, List.getElem_map, List.getElem_range, Prod.mk.injEq] at hpc
    obtain ⟨rfl, rfl⟩ := hpc
    exact hpt i hi'
  · rw [sum_range_map]
    have := sum_map_le (l := reports) (f := fun r => ∑ i ∈ range a.2.length, e r i) (g := fun _ => 1) h1
    simpa using this
end

end Vdaf.Poplar1
