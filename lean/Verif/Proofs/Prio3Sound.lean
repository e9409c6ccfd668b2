import Verif.Proofs.Prio3Run
import Verif.Props.Flp

/-! Malicious clients: what a successful verification implies. -/

set_option linter.unusedSectionVars false

namespace Vdaf
open Finset

theorem front_ok_blk {α : Type} {k i : ℕ} {l a b : List α} (h : front k (l.drop (k * i)) = .ok (a, b)) :
    a = blk k l i ∧ b = l.drop (k * (i + 1)) := by
  unfold front at h
  split at h
  · cases h
    exact ⟨rfl, by rw [List.drop_drop, mul_add, mul_one]⟩
  · cases h

theorem flatMap_blk {α : Type} {k n : ℕ} {l : List α} (h : l.length = k * n) :
    (List.range n).flatMap (blk k l) = l := by
  have key : ∀ m ≤ n, (List.range m).flatMap (blk k l) = l.take (k * m) := by
    intro m
    induction m with
    | zero => intro _; simp
    | succ m ih =>
      intro hm
      rw [flatMap_range_succ, ih (by omega), mul_add, mul_one, List.take_add]
      rfl
  rw [key n le_rfl, ← h, List.take_length]

theorem vecAdd_length_ok {F : Type} [NttField F] {u v w : List F} (h : vecAdd u v = .ok w) :
    u.length = v.length ∧ w.length = u.length := by
  unfold vecAdd at h
  split at h
  · cases h
  · next hl =>
    have hl' : u.length = v.length := by simpa using hl
    cases h
    exact ⟨hl', by simp [hl']⟩

namespace Prio3
variable {X : Xof} {F : Type} [NttField F] {Meas Agg : Type} {P : Prio3 X F Meas Agg}

theorem queryLoop_ok {ms ps qrs jrs r : List F} (h : P.queryLoop ms ps qrs jrs = .ok r) :
    ∃ v : ℕ → List F, r = (List.range P.proofs).flatMap v ∧
      ∀ i < P.proofs, P.flp.query ms (blk P.proofLen ps i) (blk P.flp.queryRandLen qrs i)
        (blk P.flp.jointRandLen jrs i) P.shares = .ok (v i) := by
  unfold queryLoop at h
  obtain ⟨⟨r', x⟩, h, hr⟩ := Except.bind_eq_ok.1 h
  cases hr
  set v : ℕ → List F := fun i => okVal (P.flp.query ms (blk P.proofLen ps i)
    (blk P.flp.queryRandLen qrs i) (blk P.flp.jointRandLen jrs i) P.shares) with hv
  set f := fun (x : List F × List F × List F × List F) (_ : ℕ) => (do
        let (proofShare, proofsShare) ← front P.proofLen x.2.1
        let (queryRand, queryRands) ← front P.flp.queryRandLen x.2.2.1
        let (jointRand, jointRands) ← P.nextJointRand x.2.2.2
        let v ← P.flp.query ms proofShare queryRand jointRand P.shares
        return (x.1 ++ v, proofsShare, queryRands, jointRands) : Res (List F × List F × List F × List F)) with hf
  have key : ∀ n r, forFold (List.range n) (([] : List F), ps, qrs, jrs) f = .ok r →
      r = ((List.range n).flatMap v, ps.drop (P.proofLen * n), qrs.drop (P.flp.queryRandLen * n),
        jrs.drop (P.flp.jointRandLen * n)) ∧
        ∀ i < n, P.flp.query ms (blk P.proofLen ps i) (blk P.flp.queryRandLen qrs i)
          (blk P.flp.jointRandLen jrs i) P.shares = .ok (v i) := by
    intro n
    induction n with
    | zero => intro r hr; cases hr; exact ⟨by simp, by omega⟩
    | succ n ih =>
      intro r hr
      rw [List.range_succ, forFold_append] at hr
      obtain ⟨s, hs, hr⟩ := Except.bind_eq_ok.1 hr
      obtain ⟨rfl, h2⟩ := ih s hs
      rw [forFold_cons] at hr
      obtain ⟨s, hs, hr⟩ := Except.bind_eq_ok.1 hr
      cases hr
      simp only [hf] at hs
      obtain ⟨⟨a1, b1⟩, e1, hs⟩ := Except.bind_eq_ok.1 hs
      obtain ⟨rfl, rfl⟩ := front_ok_blk e1
      obtain ⟨⟨a2, b2⟩, e2, hs⟩ := Except.bind_eq_ok.1 hs
      obtain ⟨rfl, rfl⟩ := front_ok_blk e2
      obtain ⟨⟨a3, b3⟩, e3, hs⟩ := Except.bind_eq_ok.1 hs
      have h3 : a3 = blk P.flp.jointRandLen jrs n ∧ b3 = jrs.drop (P.flp.jointRandLen * (n + 1)) := by
        unfold nextJointRand at e3
        split at e3
        · exact front_ok_blk e3
        · next hj =>
          cases e3
          have : P.flp.jointRandLen = 0 := by omega
          simp [this, blk]
      obtain ⟨rfl, rfl⟩ := h3
      obtain ⟨w, e4, hs⟩ := Except.bind_eq_ok.1 hs
      cases hs
      have hvn : v n = w := okVal_eq e4
      refine ⟨by rw [flatMap_range_succ, hvn], fun i hi => ?_⟩
      rcases Nat.lt_succ_iff_lt_or_eq.1 hi with h' | rfl
      · exact h2 i h'
      · rw [hvn]; exact e4
  obtain ⟨h1, h2⟩ := key _ _ h
  cases h1
  exact ⟨v, rfl, h2⟩

theorem sharesToMessage_lengths {ctx : Bytes} {sh : List (List F × Option Bytes)} {msg : Option Bytes}
    (h : P.sharesToMessage ctx () sh = .ok msg) :
    ∀ y ∈ sh, y.1.length = P.flp.verifierLen * P.proofs := by
  unfold sharesToMessage at h
  obtain ⟨⟨r, ps⟩, h, -⟩ := Except.bind_eq_ok.1 h
  set n := P.flp.verifierLen * P.proofs
  have key : ∀ (l : List (List F × Option Bytes)) (a : List F × List Bytes) r, a.1.length = n →
      forFold l a (fun (x : List F × List Bytes) (y : List F × Option Bytes) => do
        let verifiers ← vecAdd x.1 y.1
        let jointRandParts ← P.appendPart x.2 y.2
        return (verifiers, jointRandParts)) = .ok r → ∀ y ∈ l, y.1.length = n := by
    intro l
    induction l with
    | nil => intro a r _ _ y hy; cases hy
    | cons x l ih =>
      intro a r ha hr y hy
      rw [forFold_cons] at hr
      obtain ⟨s, hs, hr⟩ := Except.bind_eq_ok.1 hr
      obtain ⟨u, hu, hs⟩ := Except.bind_eq_ok.1 hs
      obtain ⟨q, -, hs⟩ := Except.bind_eq_ok.1 hs
      cases hs
      obtain ⟨l1, l2⟩ := vecAdd_length_ok hu
      rcases List.mem_cons.1 hy with rfl | hy
      · rw [← l1, ha]
      · exact ih _ _ (by dsimp only; rw [l2, ha]) hr y hy
  exact key sh _ _ (by simp [fieldZeros]) h

theorem verifyNext_ok_iff {ctx : Bytes} {st : List F × Option Bytes} {msg : Option Bytes} :
    (∃ r, verifyNext (F := F) ctx st msg = .ok r) ↔ msg = st.2 := by
  obtain ⟨o, c⟩ := st
  unfold verifyNext
  by_cases h : msg = c
  · simp [h, raiseIf]
  · simp [h, raiseIf]

/-- `Spec.JointRandOf` in terms of the functions of the model. -/
def JointRandOf (P : Prio3 X F Meas Agg) (ctx nonce : Bytes) (ms : ℕ → List F)
    (bl : ℕ → Option Bytes) (seed : Option Bytes) (jrs : List F) : Prop :=
  (P.flp.jointRandLen = 0 ∧ seed = none ∧ jrs = []) ∨
  (0 < P.flp.jointRandLen ∧ ∃ (b parts : ℕ → Bytes) (s : Bytes), seed = some s ∧
    (∀ j < P.shares, bl j = some (b j) ∧
      P.jointRandPart ctx j (b j) (ms j) nonce = .ok (parts j)) ∧
    P.jointRandSeed ctx ((List.range P.shares).map parts) = .ok s ∧ P.jointRands ctx s = .ok jrs)

theorem JointRandOf.spec {ctx nonce : Bytes} {ms : ℕ → List F} {bl : ℕ → Option Bytes}
    {seed : Option Bytes} {jrs : List F} (h : P.JointRandOf ctx nonce ms bl seed jrs) :
    Spec.JointRandOf P ctx nonce ms bl seed jrs := by
  rcases h with h | ⟨h0, b, parts, s, h1, h2, h3, h4⟩
  · exact .inl h
  · exact .inr ⟨h0, b, parts, s, h1, fun j hj => ⟨(h2 j hj).1, (jointRandPart_ok.1 (h2 j hj).2).2.2⟩,
      (jointRandSeed_ok.1 h3).2, (jointRands_ok.1 h4).2.2⟩

theorem jointRandOf_of {ctx nonce : Bytes} {ms : ℕ → List F} {bl : ℕ → Option Bytes}
    {seed : Option Bytes} {jrs : List F} (hid : P.id < 2 ^ 32) (hp : P.proofs < 256)
    (hs : P.shares ≤ 256) (h : Spec.JointRandOf P ctx nonce ms bl seed jrs) :
    P.JointRandOf ctx nonce ms bl seed jrs := by
  rcases h with h | ⟨h0, b, parts, s, h1, h2, h3, h4⟩
  · exact .inl h
  · exact .inr ⟨h0, b, parts, s, h1,
      fun j hj => ⟨(h2 j hj).1, jointRandPart_ok.2 ⟨hid, by omega, (h2 j hj).2⟩⟩,
      jointRandSeed_ok.2 ⟨hid, h3⟩, jointRands_ok.2 ⟨hid, hp, h4⟩⟩


/-- C24, in the form used below. -/
theorem joint_of_success (hN : 0 < P.shares) {vk ctx nonce : Bytes} {pub : Option (List Bytes)}
    {ish : ℕ → Prio3InputShare F} {st sh : ℕ → List F × Option Bytes} {msg : Option Bytes}
    (h : Spec.VerifySucceeds P vk ctx nonce pub ish st sh msg) :
    ∃ (ms ps : ℕ → List F) (bl : ℕ → Option Bytes) (jrs qrs : List F),
      (∀ j < P.shares, P.expandInputShare ctx j (ish j) = .ok (ms j, ps j, bl j)) ∧
      P.JointRandOf ctx nonce ms bl msg jrs ∧
      P.queryRands vk ctx nonce = .ok qrs ∧
      ∀ j < P.shares, (st j).2 = msg ∧ P.flp.truncate (ms j) = .ok (st j).1 ∧
        P.queryLoop (ms j) (ps j) qrs jrs = .ok (sh j).1 := by
  obtain ⟨h1, h2, h3⟩ := h
  have hseed : ∀ j < P.shares, (st j).2 = msg := fun j hj => (verifyNext_ok_iff.1 (h3 j hj)).symm
  have hinv : ∀ j, ∃ ms ps bl jrs qrs, j < P.shares →
      P.expandInputShare ctx j (ish j) = .ok (ms, ps, bl) ∧ P.flp.truncate ms = .ok (st j).1 ∧
      P.verifyJointRand ctx j nonce pub ms bl = .ok (jrs, (st j).2, (sh j).2) ∧
      P.queryRands vk ctx nonce = .ok qrs ∧ P.queryLoop ms ps qrs jrs = .ok (sh j).1 := by
    intro j
    by_cases hj : j < P.shares
    · have := h1 j hj
      unfold verifyInit at this
      obtain ⟨⟨ms, ps, bl⟩, e1, this⟩ := Except.bind_eq_ok.1 this
      obtain ⟨o, e2, this⟩ := Except.bind_eq_ok.1 this
      obtain ⟨⟨jrs, c, p⟩, e3, this⟩ := Except.bind_eq_ok.1 this
      obtain ⟨qrs, e4, this⟩ := Except.bind_eq_ok.1 this
      obtain ⟨w, e5, this⟩ := Except.bind_eq_ok.1 this
      have h6 := Except.ok.inj this
      have h7 : st j = (o, c) := (congrArg Prod.fst h6).symm
      have h8 : sh j = (w, p) := (congrArg Prod.snd h6).symm
      refine ⟨ms, ps, bl, jrs, qrs, fun _ => ⟨e1, ?_, ?_, e4, ?_⟩⟩
      · rw [h7]; exact e2
      · rw [h7, h8]; exact e3
      · rw [h8]; exact e5
    · exact ⟨[], [], none, [], [], fun h => absurd h hj⟩
  choose ms ps bl jr qr hh using hinv
  have hq : ∀ j < P.shares, qr j = qr 0 := by
    intro j hj
    have a := (hh j hj).2.2.2.1
    have b := (hh 0 hN).2.2.2.1
    rw [a] at b; exact Except.ok.inj b
  have hlen := sharesToMessage_lengths h2
  by_cases hj0 : 0 < P.flp.jointRandLen
  · -- joint randomness in use
    have hpart : ∀ j, ∃ b p, j < P.shares → bl j = some b ∧ (sh j).2 = some p ∧
        P.jointRandPart ctx j b (ms j) nonce = .ok p := by
      intro j
      by_cases hj : j < P.shares
      · have := (hh j hj).2.2.1
        unfold verifyJointRand at this
        rw [if_pos hj0] at this
        cases hb : bl j with
        | none => rw [hb] at this; cases this
        | some b =>
          cases hp : pub with
          | none => rw [hb, hp] at this; cases this
          | some parts =>
            rw [hb, hp] at this
            dsimp only at this
            obtain ⟨p, e1, this⟩ := Except.bind_eq_ok.1 this
            obtain ⟨parts', e2, this⟩ := Except.bind_eq_ok.1 this
            obtain ⟨seed, e3, this⟩ := Except.bind_eq_ok.1 this
            obtain ⟨jrs, e4, this⟩ := Except.bind_eq_ok.1 this
            have h6 := Except.ok.inj this
            exact ⟨b, p, fun _ => ⟨rfl, (congrArg (fun x => x.2.2) h6).symm, e1⟩⟩
      · exact ⟨[], [], fun h => absurd h hj⟩
    choose b p hbp using hpart
    have hsh : (List.range P.shares).map sh = tab P.shares fun j => ((sh j).1, (sh j).2) := rfl
    rw [hsh, sharesToMessage_eq (pb := p) (fun j hj => hlen (sh j) (List.mem_map.2 ⟨j, by simpa using hj, rfl⟩))
      (fun _ j hj => (hbp j hj).2.1), if_pos hj0] at h2
    obtain ⟨_, -, h2⟩ := Except.bind_eq_ok.1 h2
    obtain ⟨s, hs, h2⟩ := Except.bind_eq_ok.1 h2
    cases h2
    -- the joint randomness of each aggregator comes from the seed in its state
    have hjr : ∀ j < P.shares, P.jointRands ctx s = .ok (jr j) := by
      intro j hj
      have := (hh j hj).2.2.1
      rw [hseed j hj] at this
      unfold verifyJointRand at this
      rw [if_pos hj0, (hbp j hj).1] at this
      cases hp : pub with
      | none => rw [hp] at this; cases this
      | some parts =>
        rw [hp] at this
        dsimp only at this
        obtain ⟨p, e1, this⟩ := Except.bind_eq_ok.1 this
        obtain ⟨parts', e2, this⟩ := Except.bind_eq_ok.1 this
        obtain ⟨seed, e3, this⟩ := Except.bind_eq_ok.1 this
        obtain ⟨jrs, e4, this⟩ := Except.bind_eq_ok.1 this
        have h6 := Except.ok.inj this
        have h7 : some seed = some s := congrArg (fun x => x.2.1) h6
        have h8 : jrs = jr j := congrArg (fun x => x.1) h6
        cases h7; rw [← h8]; exact e4
    refine ⟨ms, ps, bl, jr 0, qr 0, fun j hj => (hh j hj).1, .inr ⟨hj0, b, p, s, rfl,
      fun j hj => ⟨(hbp j hj).1, (hbp j hj).2.2⟩, hs, hjr 0 hN⟩, (hh 0 hN).2.2.2.1,
      fun j hj => ⟨hseed j hj, (hh j hj).2.1, ?_⟩⟩
    have : jr j = jr 0 := by
      have a := hjr j hj; rw [hjr 0 hN] at a; exact (Except.ok.inj a).symm
    rw [← hq j hj, ← this]
    exact (hh j hj).2.2.2.2
  · have hj1 : P.flp.jointRandLen = 0 := by omega
    have hvj : ∀ j < P.shares, jr j = [] ∧ (st j).2 = none := by
      intro j hj
      have := (hh j hj).2.2.1
      unfold verifyJointRand at this
      rw [if_neg (by omega)] at this
      have h6 := Except.ok.inj this
      exact ⟨(congrArg (fun x => x.1) h6).symm, (congrArg (fun x => x.2.1) h6).symm⟩
    refine ⟨ms, ps, bl, [], qr 0, fun j hj => (hh j hj).1,
      .inl ⟨hj1, by rw [← hseed 0 hN]; exact (hvj 0 hN).2, rfl⟩, (hh 0 hN).2.2.2.1,
      fun j hj => ⟨hseed j hj, (hh j hj).2.1, ?_⟩⟩
    have := (hh j hj).2.2.2.2
    rw [(hvj j hj).1, hq j hj] at this
    exact this

theorem query_ok_len (W : P.WF) {ms π qr jr v : List F} {N : ℕ} (hN : 1 ≤ N)
    (hN' : N < PyField.modulus F) (h : P.flp.query ms π qr jr N = .ok v) :
    ms.length = P.flp.measLen ∧ π.length = P.proofLen ∧ qr.length = P.flp.queryRandLen ∧
      jr.length = P.flp.jointRandLen ∧ v.length = P.flp.verifierLen := by
  have h0 := h
  unfold Valid.query at h
  obtain ⟨_, e1, h⟩ := Except.bind_eq_ok.1 h
  obtain ⟨pl, e2, h⟩ := Except.bind_eq_ok.1 h
  obtain ⟨_, e3, h⟩ := Except.bind_eq_ok.1 h
  obtain ⟨_, e4, h⟩ := Except.bind_eq_ok.1 h
  obtain ⟨_, e5, h⟩ := Except.bind_eq_ok.1 h
  rw [W.proofLen] at e2
  cases e2
  have a1 := of_decide_eq_true (pyAssert_eq_ok.1 e1)
  have a3 := of_decide_eq_true (pyAssert_eq_ok.1 e3)
  have a4 := of_decide_eq_true (pyAssert_eq_ok.1 e4)
  have a5 := of_decide_eq_true (pyAssert_eq_ok.1 e5)
  refine ⟨a1, a3, a4, a5, ?_⟩
  rcases W.lawful.query_total a1 (by rw [W.proofLen, a3]) a4 a5 hN hN' with ⟨-, hb⟩ | ⟨-, v', hb, hl⟩
  · rw [hb] at h0; cases h0
  · rw [hb] at h0; cases h0; exact hl

/-- The query randomness of one proof for which the sum of the shares passes. -/
def Pass (P : Prio3 X F Meas Agg) (ms ps : ℕ → List F) (jrs : List F) (i : ℕ) :
    Set (Fin P.flp.queryRandLen → F) :=
  {qr | ∃ (vs : ℕ → List F) (v : List F),
    (∀ j < P.shares, P.flp.query (ms j) (blk P.proofLen (ps j) i) (List.ofFn qr)
      (blk P.flp.jointRandLen jrs i) P.shares = .ok (vs j)) ∧
    Spec.IsSum (fun j : Fin P.shares => vs j) v ∧ P.flp.decide v = .ok true}

theorem pass_of_success (W : P.WF) {ctx : Bytes} {ms ps : ℕ → List F} {jrs qrs : List F}
    {sh : ℕ → List F × Option Bytes} {msg : Option Bytes}
    (hq : ∀ j < P.shares, P.queryLoop (ms j) (ps j) qrs jrs = .ok (sh j).1)
    (hm : P.sharesToMessage ctx () ((List.range P.shares).map sh) = .ok msg)
    {i : ℕ} (hi : i < P.proofs) (qr : Fin P.flp.queryRandLen → F)
    (hqr : List.ofFn qr = blk P.flp.queryRandLen qrs i) : qr ∈ P.Pass ms ps jrs i := by
  have hN := W.shares_ge
  have hlen := sharesToMessage_lengths hm
  have hl : ∀ j < P.shares, (sh j).1.length = P.flp.verifierLen * P.proofs :=
    fun j hj => hlen (sh j) (List.mem_map.2 ⟨j, by simpa using hj, rfl⟩)
  have hv : ∀ j, ∃ v : ℕ → List F, j < P.shares → (sh j).1 = (List.range P.proofs).flatMap v ∧
      ∀ i < P.proofs, P.flp.query (ms j) (blk P.proofLen (ps j) i) (blk P.flp.queryRandLen qrs i)
        (blk P.flp.jointRandLen jrs i) P.shares = .ok (v i) := by
    intro j
    by_cases hj : j < P.shares
    · obtain ⟨v, h1, h2⟩ := queryLoop_ok (hq j hj)
      exact ⟨v, fun _ => ⟨h1, h2⟩⟩
    · exact ⟨fun _ => [], fun h => absurd h hj⟩
  choose v hv using hv
  -- the message is computed from the sum
  have hdec : P.decideLoop (tab (P.flp.verifierLen * P.proofs) fun k =>
      ∑ j ∈ range P.shares, coef (sh j).1 k) = .ok () := by
    unfold sharesToMessage at hm
    obtain ⟨⟨r, qs⟩, h1, h2⟩ := Except.bind_eq_ok.1 hm
    obtain ⟨_, h3, -⟩ := Except.bind_eq_ok.1 h2
    have key : ∀ M ≤ P.shares, ∀ r qs, forFold ((List.range M).map sh)
        (fieldZeros F (P.flp.verifierLen * P.proofs), ([] : List Bytes))
        (fun (x : List F × List Bytes) (y : List F × Option Bytes) => do
          let verifiers ← vecAdd x.1 y.1
          let jointRandParts ← P.appendPart x.2 y.2
          return (verifiers, jointRandParts)) = .ok (r, qs) →
        r = tab (P.flp.verifierLen * P.proofs) fun k => ∑ j ∈ range M, coef (sh j).1 k := by
      intro M
      induction M with
      | zero =>
        intro _ r qs h
        cases h
        simp [fieldZeros, tab, List.map_const']
      | succ M ih =>
        intro hM r qs h
        rw [List.range_succ, List.map_append, forFold_append] at h
        obtain ⟨⟨s, q⟩, h1, h⟩ := Except.bind_eq_ok.1 h
        have := ih (by omega) s q h1
        subst this
        simp only [List.map_cons, List.map_nil, forFold_cons, forFold_nil] at h
        obtain ⟨s', h4, h⟩ := Except.bind_eq_ok.1 h
        obtain ⟨u, h5, h4⟩ := Except.bind_eq_ok.1 h4
        obtain ⟨q', -, h4⟩ := Except.bind_eq_ok.1 h4
        cases h4; cases h
        rw [eq_tab (hl M (by omega)), vecAdd_tab] at h5
        cases h5
        apply tab_congr
        intro k hk
        rw [sum_range_succ]
    rw [← key _ le_rfl r qs h1]
    exact h3
  have h1 := isSum_blk (isSum_range hl) P.flp.verifierLen i
  have h2 : (fun j : Fin P.shares => blk P.flp.verifierLen (sh j).1 i) =
      fun j : Fin P.shares => v j i := by
    funext j
    rw [(hv j j.2).1]
    exact blk_flatMap (fun i hi => (query_ok_len W (by omega) W.modulus ((hv j j.2).2 i hi)).2.2.2.2) hi
  rw [h2] at h1
  refine ⟨fun j => v j i, _, fun j hj => ?_, h1, (decideLoop_ok (by simp)).1 hdec i hi⟩
  rw [hqr]
  exact (hv j hj).2 i hi

/-- Few query randomness vectors make an invalid measurement pass. -/
theorem pass_card (W : P.WF) {ms ps : ℕ → List F} {jrs : List F} {i : ℕ}
    (hinv : ∀ meas, Spec.IsSum (fun j : Fin P.shares => ms j) meas →
      ¬ Spec.Accepts P.flp meas (blk P.flp.jointRandLen jrs i)) (B : ℕ) (hB : 1 ≤ B)
    (hB' : ∀ g c p, (g, c) ∈ List.zip P.flp.gadgets P.flp.gadgetCalls → wirePolyLen c = .ok p →
      g.degree * (p - 1) ≤ B) :
    (P.Pass ms ps jrs i).ncard ≤ B * PyField.modulus F ^ (P.flp.queryRandLen - 1) := by
  have hN := W.shares_ge
  by_cases hne : (P.Pass ms ps jrs i).Nonempty
  · obtain ⟨qr, vs, v, h1, h2, h3⟩ := hne
    have hlen := fun j hj => query_ok_len W (by omega) W.modulus (h1 j hj)
    have hms : Spec.IsSum (fun j : Fin P.shares => ms j) _ :=
      isSum_range fun j hj => (hlen j hj).1
    have hπs : Spec.IsSum (fun j : Fin P.shares => blk P.proofLen (ps j) i) _ :=
      isSum_range (w := fun j => blk P.proofLen (ps j) i) fun j hj => (hlen j hj).2.1
    have hjr := (hlen 0 (by omega)).2.2.2.1
    obtain ⟨out, log, -, -, -, -, hout⟩ := W.lawful.evalPlain_eq
      (meas := tab P.flp.measLen fun k => ∑ j ∈ range P.shares, coef (ms j) k) (by simp) hjr le_rfl
      (one_lt_modulus F)
    have hne : ∃ x ∈ out, x ≠ 0 := by
      by_contra hc
      push Not at hc
      exact hinv _ hms ⟨out, hout, hc⟩
    refine le_trans (Set.ncard_le_ncard ?_ (Set.toFinite _))
      (W.lawful.sound_shares (by omega) W.modulus hms hπs (by simp) hjr hout hne
        (by rw [W.proofLen]; simp) B hB hB')
    rintro qr ⟨vs, v, h1, h2, h3⟩
    exact ⟨fun j => vs j, v, fun j => h1 j j.2, h2, h3⟩
  · rw [Set.not_nonempty_iff_eq_empty] at hne
    rw [hne]; simp

end Prio3

theorem ncard_pi_le {α : Type} [Finite α] {n : ℕ} (A : Fin n → Set α) (S : Finset (Fin n)) (a b : ℕ)
    (hS : ∀ i ∈ S, (A i).ncard ≤ a) (hb : ∀ i, (A i).ncard ≤ b) :
    Set.ncard {f : Fin n → α | ∀ i, f i ∈ A i} ≤ a ^ S.card * b ^ (n - S.card) := by
  have : {f : Fin n → α | ∀ i, f i ∈ A i} = Set.pi Set.univ A := by ext f; simp
  rw [this, ← Nat.card_coe_set_eq, Nat.card_congr (Equiv.Set.univPi A), Nat.card_pi]
  simp only [Nat.card_coe_set_eq]
  rw [← Finset.prod_mul_prod_compl S]
  refine Nat.mul_le_mul ?_ ?_
  · exact (Finset.prod_le_prod (fun _ _ => Nat.zero_le _) hS).trans (by simp)
  · refine (Finset.prod_le_prod (fun _ _ => Nat.zero_le _) (fun i _ => hb i)).trans ?_
    simp [Finset.card_compl]

/-- Few sequences of query randomness make a report with an invalid measurement pass. -/
theorem Prio3.robust {X : Xof} {F : Type} [NttField F] {Meas Agg : Type} {P : Prio3 X F Meas Agg} (W : P.WF) {ctx nonce : Bytes} {ish : ℕ → Prio3InputShare F}
    {ms ps : ℕ → List F} {bl : ℕ → Option Bytes} {seed : Option Bytes} {jrs : List F}
    (hexp : ∀ j < P.shares, Spec.Expands P ctx j (ish j) (ms j) (ps j) (bl j))
    (hjr : Spec.JointRandOf P ctx nonce ms bl seed jrs) (S : Finset (Fin P.proofs))
    (hinv : ∀ i ∈ S, ∀ meas, Spec.IsSum (fun j : Fin P.shares => ms j) meas →
      ¬ Spec.Accepts P.flp meas (Spec.piece P.flp.jointRandLen jrs i))
    (B : ℕ) (hB : 1 ≤ B)
    (hB' : ∀ g c p, (g, c) ∈ List.zip P.flp.gadgets P.flp.gadgetCalls → wirePolyLen c = .ok p →
      g.degree * (p - 1) ≤ B) :
    ∃ Bad : Set (Fin P.proofs → Fin P.flp.queryRandLen → F),
      Bad.ncard ≤ (B * PyField.modulus F ^ (P.flp.queryRandLen - 1)) ^ S.card *
        (PyField.modulus F ^ P.flp.queryRandLen) ^ (P.proofs - S.card) ∧
      ∀ verifyKey pub st sh msg, Spec.VerifySucceeds P verifyKey ctx nonce pub ish st sh msg →
        ∃ q ∈ Bad, Spec.queryRands P verifyKey ctx nonce =
          .ok ((List.ofFn fun i => List.ofFn (q i)).flatten) := by
  have hjr := Prio3.jointRandOf_of W.id W.proofs (by have := W.shares_lt; omega) hjr
  replace hexp := fun j (hj : j < P.shares) => Prio3.expandInputShare_of W.id W.proofs
    (by have := W.shares_lt; omega) (hexp j hj)
  refine ⟨{q | ∀ i : Fin P.proofs, q i ∈ P.Pass ms ps jrs i}, ?_, ?_⟩
  · refine ncard_pi_le (fun i => P.Pass ms ps jrs i) S _ _ ?_ ?_
    · intro i hi
      exact Prio3.pass_card W (hinv i hi) B hB hB'
    · intro i
      calc (P.Pass ms ps jrs i).ncard ≤ Nat.card (Fin P.flp.queryRandLen → F) :=
            Set.ncard_le_card _
        _ = PyField.modulus F ^ P.flp.queryRandLen := by
            rw [Nat.card_fun, Nat.card_eq_fintype_card, Nat.card_eq_fintype_card, Fintype.card_fin,
              card_eq]
  · intro vk pub st sh msg hv
    obtain ⟨ms', ps', bl', jrs', qrs, h1, h2, h3, h4⟩ :=
      Prio3.joint_of_success (by have := W.shares_ge; omega) hv
    have he : ∀ j < P.shares, ms' j = ms j ∧ ps' j = ps j ∧ bl' j = bl j := by
      intro j hj
      have := h1 j hj
      rw [hexp j hj] at this
      simp only [Except.ok.injEq, Prod.mk.injEq] at this
      exact ⟨this.1.symm, this.2.1.symm, this.2.2.symm⟩
    have hjj : jrs' = jrs := by
      rcases h2 with ⟨a, -, b⟩ | ⟨a, b, parts, s, -, b1, b2, b3⟩
      · rcases hjr with ⟨-, -, d⟩ | ⟨c, -⟩
        · rw [b, d]
        · omega
      · rcases hjr with ⟨c, -⟩ | ⟨-, c, parts', s', -, c1, c2, c3⟩
        · omega
        · have hp : ∀ j < P.shares, parts j = parts' j := by
            intro j hj
            obtain ⟨d1, d2⟩ := b1 j hj
            obtain ⟨f1, f2⟩ := c1 j hj
            rw [(he j hj).2.2, f1, Option.some.injEq] at d1
            rw [(he j hj).1, ← d1, f2, Except.ok.injEq] at d2
            exact d2.symm
          have : (List.range P.shares).map parts = (List.range P.shares).map parts' :=
            List.map_congr_left fun j hj => hp j (List.mem_range.1 hj)
          rw [this, c2] at b2
          cases b2
          rw [c3] at b3
          cases b3; rfl
    have hlen : qrs.length = P.flp.queryRandLen * P.proofs := by
      unfold Prio3.queryRands at h3
      obtain ⟨d, -, h3⟩ := Except.bind_eq_ok.1 h3
      obtain ⟨p, -, h3⟩ := Except.bind_eq_ok.1 h3
      exact expandIntoVec_length h3
    have hbl : ∀ i : Fin P.proofs, (blk P.flp.queryRandLen qrs i).length = P.flp.queryRandLen :=
      fun i => blk_length' hlen i.2
    set q : Fin P.proofs → Fin P.flp.queryRandLen → F :=
      fun i k => (blk P.flp.queryRandLen qrs i)[k]'(by rw [hbl]; exact k.2) with hq
    have hofn : ∀ i, List.ofFn (q i) = blk P.flp.queryRandLen qrs i := by
      intro i
      apply List.ext_getElem (by simp [hbl])
      intro k hk1 hk2
      simp [hq]
    refine ⟨q, ?_, ?_⟩
    · intro i
      subst hjj
      refine Prio3.pass_of_success W (qrs := qrs) (sh := sh) ?_ hv.2.1 i.2 (q i) (hofn i)
      intro j hj
      have := (h4 j hj).2.2
      rwa [(he j hj).1, (he j hj).2.1] at this
    · rw [(Prio3.queryRands_ok.1 h3).2.2]
      congr 1
      simp only [hofn]
      conv_lhs => rw [← flatMap_blk hlen, List.flatMap_def]
      congr 1
      apply List.ext_getElem (by simp)
      intro i h1 h2
      simp

end Vdaf
