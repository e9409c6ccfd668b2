import Verif.Proofs.FuelPoplar1
import Verif.Props.Prio3
import Verif.Props.Poplar1Main
import Verif.Props.PingPong

/-!
# Property C54: termination

Specification vocabulary (`Verif/Spec/Fuel.lean`): `Spec.Outcome r v` says that the computation, whose results for
the various bounds on the number of iterations of the rejection-sampling loop are `r`, ends with the outcome `v`;
`Spec.SamplingEnds X F` says that from every state of the XOF an acceptable chunk is read eventually (or the XOF
raises); `Spec.AllTerminate V` says that every method of the VDAF terminates, for all arguments.
-/

namespace Vdaf

variable {prims : Prims}

/-- The outcome is unique. -/
theorem C54_outcome_unique {α : Type} {r : ℕ → Res α} {v w : Res α} (hv : Spec.Outcome r v)
    (hw : Spec.Outcome r w) : v = w := by
  obtain ⟨-, ⟨n, hn⟩, -⟩ := hv
  obtain ⟨-, ⟨m, hm⟩, -⟩ := hw
  rw [← hn (max n m) (le_max_left _ _), hm (max n m) (le_max_right _ _)]

/-! ### The XOFs -/

/-- If no chunk is ever accepted, the loop is cut off whatever the bound. -/
theorem nextVecLoop_stuck {X : Xof} {F : Type} [PyField F] (f : ℕ) (st : X.State)
    (h : ∀ k, ∃ cs st', Spec.readAll X st (List.replicate k (PyField.encSize F)) = .ok (cs, st') ∧
      ∀ c ∈ cs, Spec.sample F c = none) :
    X.nextVecLoop F (2 ^ Nat.size (PyField.modulus F - 1) - 1) 1 f st [] = .error .fuel := by
  induction f generalizing st with
  | zero => rfl
  | succ f ih =>
    obtain ⟨cs, st', h1, h2⟩ := h 1
    cases hx : X.next st (PyField.encSize F) with
    | error e => simp [Spec.readAll, hx] at h1
    | ok r =>
      obtain ⟨b, st1⟩ := r
      simp only [List.replicate_one, Spec.readAll, hx] at h1
      have hb : Spec.sample F b = none := h2 b (by injection h1 with h1; injection h1 with h1 _; rw [← h1]; simp)
      have hb' : ¬ fromLeBytes b &&& (2 ^ Nat.size (PyField.modulus F - 1) - 1) < PyField.modulus F := by
        rw [land_mask]
        intro hlt
        unfold Spec.sample at hb
        rw [if_pos hlt] at hb
        cases hb
      rw [Xof.nextVecLoop, if_pos (by simp), hx]
      simp only [Except.ok_bind']
      rw [if_neg hb']
      refine ih st1 fun k => ?_
      obtain ⟨cs, st', h1, h2⟩ := h (k + 1)
      rw [List.replicate_succ] at h1
      simp only [Spec.readAll, hx] at h1
      revert h1
      cases Spec.readAll X st1 (List.replicate k (PyField.encSize F)) with
      | error e => rintro ⟨⟩
      | ok r =>
        obtain ⟨cs', st''⟩ := r
        intro h1
        cases h1
        exact ⟨cs', _, rfl, fun c hc => h2 c (List.mem_cons_of_mem _ hc)⟩

theorem samplingEnds_of_terminates {X : Xof} {F : Type} [PyField F]
    (h : ∀ (st : X.State) (n : ℕ), Spec.Halts fun f => X.nextVec F f st n) : Spec.SamplingEnds X F := by
  intro st
  by_contra hne
  push Not at hne
  obtain ⟨v, hv, ⟨n, hn⟩, -⟩ := h st 1
  refine hv ?_
  rw [← hn n le_rfl]
  show X.nextVec F n st 1 = _
  unfold Xof.nextVec
  rw [nextPowerOf2_of_pos (lt_of_le_of_lt (Nat.zero_le _) (PyField.toNat_lt (0 : F)))]
  refine nextVecLoop_stuck n st fun k => ?_
  obtain ⟨h1, h2⟩ := hne k
  cases hr : Spec.readAll X st (List.replicate k (PyField.encSize F)) with
  | error e => exact absurd hr (h1 e)
  | ok r =>
    obtain ⟨cs, st'⟩ := r
    refine ⟨cs, st', rfl, fun c hc => ?_⟩
    cases hs : Spec.sample F c with
    | none => rfl
    | some x => exact absurd hs (h2 cs st' c x hr hc)

/-- C54, XOFs: `next_vec` of `XofTurboShake128` terminates for all states and lengths exactly when rejection
sampling ends. -/
theorem C54_next_vec_turboshake {F : Type} [PyField F] :
    (∀ (st : TurboShakeState) (n : ℕ),
      Spec.Halts fun f => (XofTurboShake128 prims 0).nextVec F f st n) ↔
    Spec.SamplingEnds (XofTurboShake128 prims 0) F :=
  ⟨fun h => samplingEnds_of_terminates h, fun h st n => term_nextVec (turbo_nf prims 0) h st n⟩

/-- C54, XOFs: `next_vec` of `XofFixedKeyAes128` always terminates, whatever AES and TurboSHAKE compute: once
2¹²⁸ blocks are read, `next` raises. -/
theorem C54_next_vec_aes {F : Type} [PyField F] (st : FixedKeyAesState) (n : ℕ) :
    Spec.Halts fun f => (XofFixedKeyAes128 prims 0).nextVec F f st n :=
  term_nextVec (aes_nf prims 0) (aes_samplingEnds prims 0 PyField.encSize_pos) st n

/-- C54, XOFs: `derive_seed` and `expand_into_vec`. -/
theorem C54_expand {F : Type} [PyField F] (h : Spec.SamplingEnds (XofTurboShake128 prims 0) F)
    (seed dst binder : Bytes) (n : ℕ) :
    (Spec.Halts fun f => (XofTurboShake128 prims f).expandIntoVec F seed dst binder n) ∧
    (Spec.Halts fun f => (XofTurboShake128 prims f).deriveSeed seed dst binder) ∧
    (Spec.Halts fun f => (XofFixedKeyAes128 prims f).expandIntoVec F seed dst binder n) ∧
    (Spec.Halts fun f => (XofFixedKeyAes128 prims f).deriveSeed seed dst binder) :=
  ⟨term_expand (turbo_nf prims 0) h _ _ _ _, term_derive (turbo_nf prims 0) _ _ _,
    term_expand (aes_nf prims 0) (aes_samplingEnds prims 0 PyField.encSize_pos) _ _ _ _,
    term_derive (aes_nf prims 0) _ _ _⟩

/-! ### Prio3 -/

section
variable {F : Type} [NttField F] {Meas Agg : Type}

/-- C54 for Prio3: if rejection sampling ends, every method terminates, for every circuit of the library and
whatever the arguments, including malformed ones. -/
theorem C54_prio3 (hF : Spec.SamplingEnds (XofTurboShake128 prims 0) F) {flp : Valid F Meas Agg}
    {fn : Spec.Fun Meas Agg} (hflp : Spec.Library F flp fn) {id shares proofs : ℕ}
    {P : (f : ℕ) → Prio3 (XofTurboShake128 prims f) F Meas Agg}
    (hP : ∀ f, Prio3.init id (XofTurboShake128 prims f) shares flp proofs = .ok (P f)) :
    Spec.AllTerminate fun f => (P f).vdaf := by
  have h : ∃ pl, ∀ f, P f = ⟨id, shares, proofs, flp, pl⟩ := by
    obtain ⟨pl, h1, -⟩ := Except.bind_eq_ok.1 (hP 0)
    refine ⟨pl, fun f => ?_⟩
    have := hP f
    unfold Prio3.init at this
    rw [h1, Except.ok_bind', Except.bind_eq_ok] at this
    obtain ⟨_, -, this⟩ := this
    injection this with this
    exact this.symm
  obtain ⟨pl, h⟩ := h
  have : (fun f => (P f).vdaf) = fun f =>
      (prio3At (XofTurboShake128 prims 0) id shares proofs pl flp f).vdaf := by
    funext f
    rw [h f]
    rfl
  rw [this]
  exact prio3_terminates (turbo_nf prims 0) hF (Library_nf hflp) id shares proofs pl

/-- C54 for honest executions of Prio3: `run_vdaf` terminates, and its outcome is the aggregate (C23) unless
the query randomness of a report contains a root of unity. -/
theorem C54_prio3_run {fn : Spec.Fun Meas Agg} {P : (f : ℕ) → Prio3 (XofTurboShake128 prims f) F Meas Agg}
    (hF : Spec.SamplingEnds (XofTurboShake128 prims 0) F) {flp : Valid F Meas Agg} {id shares proofs : ℕ}
    (hP : ∀ f, Prio3.init id (XofTurboShake128 prims f) shares flp proofs = .ok (P f))
    (I : ∀ f, Spec.Instance (P f) fn) (verifyKey ctx : Bytes) (hkey : verifyKey.length = 32)
    (hctx : ctx.length + 8 < 2 ^ 16) (batch : List (Meas × Bytes × Bytes))
    (hbatch : ∀ m ∈ batch, fn.valid m.1 ∧ m.2.1.length = 16 ∧ m.2.2.length = (P 0).randSize) :
    ∃ v, Spec.Outcome (fun f => runVdaf (P f).vdaf verifyKey () ctx batch) v ∧
      ((∃ R, v = .ok R ∧
          fn.totals R = (fn.totals (fn.agg (batch.map Prod.fst))).map (· % PyField.modulus F) ∧
          ((∀ n ∈ fn.totals (fn.agg (batch.map Prod.fst)), n < PyField.modulus F) →
            R = fn.agg (batch.map Prod.fst))) ∨
        (v = .error rootOfUnityErr ∧
          ∃ f, ∃ nonce ∈ batch.map (fun m => m.2.1), Spec.RootHit (P f) verifyKey ctx nonce)) := by
  have hp : ∀ f, (P f).flp = flp ∧ (P f).shares = shares := fun f => by
    have := hP f
    unfold Prio3.init at this
    rw [Except.bind_eq_ok] at this
    obtain ⟨pl, -, this⟩ := this
    rw [Except.bind_eq_ok] at this
    obtain ⟨_, -, this⟩ := this
    cases h : P f
    rw [h] at this
    cases this
    exact ⟨rfl, rfl⟩
  have hlib : Spec.Library F flp fn := (hp 0).1 ▸ (I 0).library
  obtain ⟨v, hv⟩ := term_runVdaf (C54_prio3 hF hlib hP)
    (fun f => (hp f).2.trans (hp 0).2.symm) (fun _ => rfl) (fun _ => rfl) verifyKey () ctx batch
  refine ⟨v, hv, ?_⟩
  obtain ⟨hne, ⟨n, hn⟩, -⟩ := hv
  have hn := hn n le_rfl
  have hr : (P n).randSize = (P 0).randSize := by
    unfold Prio3.randSize Prio3.numSeeds
    rw [(hp n).1, (hp n).2, (hp 0).1, (hp 0).2]
    rfl
  rcases C23_end_to_end (I n) verifyKey ctx hkey hctx batch
    (fun m hm => ⟨(hbatch m hm).1, (hbatch m hm).2.1, by rw [hr]; exact (hbatch m hm).2.2⟩) with
    ⟨R, h1, h2⟩ | ⟨e, h1, h2⟩
  · exact .inl ⟨R, by rw [← hn]; exact h1, h2⟩
  · rcases h2 with ⟨rfl, -⟩ | ⟨rfl, h2⟩
    · exact absurd (hn.symm.trans h1) hne
    · exact .inr ⟨hn.symm.trans h1, n, h2⟩

end

/-! ### IDPF and Poplar1 -/

/-- C54 for the IDPF: `gen` and `eval` terminate whatever the arguments, if rejection sampling for the leaves
ends. -/
theorem C54_idpf (hL : Spec.SamplingEnds (XofTurboShake128 prims 0) Field255) (I : Idpf) :
    (∀ alpha betaInner betaLeaf ctx nonce rand,
      Spec.Halts fun f => I.gen prims f alpha betaInner betaLeaf ctx nonce rand) ∧
    ∀ aggId pub key level prefixes ctx nonce,
      Spec.Halts fun f => I.eval prims f aggId pub key level prefixes ctx nonce :=
  ⟨term_gen I prims hL, term_eval I prims hL⟩

/-- C54 for Poplar1: every method terminates, whatever the arguments. -/
theorem C54_poplar1 (hS : Spec.SamplingEnds (XofTurboShake128 prims 0) Field64)
    (hL : Spec.SamplingEnds (XofTurboShake128 prims 0) Field255) (P : Poplar1) :
    Spec.AllTerminate fun f => P.vdaf prims f := poplar1_terminates P hS hL

/-- C54 for honest executions of Poplar1: if some run with fewer than 2¹²⁰ iterations of each sampling loop is not cut
off, then `run_vdaf` terminates with the counts of C33 (no other outcome). -/
theorem C54_poplar1_run (hS : Spec.SamplingEnds (XofTurboShake128 prims 0) Field64)
    (hL : Spec.SamplingEnds (XofTurboShake128 prims 0) Field255) {bits : ℕ} {P : Poplar1}
    (hP : Poplar1.init bits = .ok P) {level : ℕ} {prefixes : List (List Bool)} (hl : level < bits)
    (hl16 : level < 2 ^ 16) (hnd : prefixes.Nodup) (hpl : ∀ p ∈ prefixes, p.length = level + 1)
    {verifyKey ctx : Bytes} (hk : verifyKey.length = 32) (hctx : ctx.length + 8 < 2 ^ 16)
    (batch : List (List Bool × Bytes × Bytes))
    (hbatch : ∀ m ∈ batch, m.1.length = bits ∧ m.2.1.length = 16 ∧ m.2.2.length = 128)
    {fuel : ℕ} (hf : fuel < 2 ^ 120)
    (hcut : runVdaf (P.vdaf prims fuel) verifyKey (level, prefixes) ctx batch ≠ .error .fuel) :
    Spec.Outcome (fun f => runVdaf (P.vdaf prims f) verifyKey (level, prefixes) ctx batch)
      (.ok (prefixes.map fun p => Spec.countPrefix (batch.map Prod.fst) p % Spec.levelModulus bits level)) := by
  have key : Spec.Halts fun f => runVdaf (P.vdaf prims f) verifyKey (level, prefixes) ctx batch :=
    term_runVdaf (V := fun f => P.vdaf prims f) (C54_poplar1 hS hL P) (fun f => by dsimp only [Poplar1.vdaf])
      (fun f => by dsimp only [Poplar1.vdaf]) (fun f => by dsimp only [Poplar1.vdaf]; rfl) verifyKey
      (level, prefixes) ctx batch
  obtain ⟨v, hv⟩ := key
  have h1 : runVdaf (P.vdaf prims fuel) verifyKey (level, prefixes) ctx batch = v :=
    (hv.2.2 fuel).resolve_left hcut
  have h2 := (C33_end_to_end prims hf hP hl hl16 hnd hpl hk hctx batch hbatch).resolve_left hcut
  have h3 := h1.symm.trans h2
  clear h1 h2
  subst h3
  exact hv

/-! ### Drivers -/

section
variable {Meas AggParam PubShare InShare OutShare AggShare AggRes VState VShare VMsg : Type}
variable {V : ℕ → VdafImpl Meas AggParam PubShare InShare OutShare AggShare AggRes VState VShare VMsg}

/-- C54 for `run_vdaf`: it terminates if all the methods of the VDAF do. -/
theorem C54_run_vdaf (hV : Spec.AllTerminate V) (hs : ∀ f, (V f).shares = (V 0).shares)
    (hr : ∀ f, (V f).rounds = (V 0).rounds) (hk : ∀ f, (V f).verifyKeySize = (V 0).verifyKeySize)
    (key : Bytes) (a : AggParam) (ctx : Bytes) (ms : List (Meas × Bytes × Bytes)) :
    Spec.Halts fun f => runVdaf (V f) key a ctx ms := term_runVdaf hV hs hr hk key a ctx ms

theorem term_receive (hV : Spec.AllTerminate V) (hr : ∀ f, (V f).rounds = (V 0).rounds) (isLeader : Bool)
    (ctx a : Bytes) (ms : List Bytes) (s : PingPongState VState VShare OutShare) :
    Term fun f => Spec.receive (V f) isLeader ctx a s ms := by
  induction ms generalizing s with
  | nil => cases s <;> exact Term.const (NF.ok _)
  | cons m ms ih =>
    cases s
    case continued st r o =>
      refine Term.bind ?_ ih
      cases isLeader
      · exact term_continued hV hr false ctx a st r m
      · exact term_continued hV hr true ctx a st r m
    all_goals exact Term.const (NF.ok _)

/-- C54 for the ping-pong topology: if all the methods of the VDAF terminate, every party reaches a state, whatever
byte strings it is given and receives, and however many. -/
theorem C54_ping_pong (hV : Spec.AllTerminate V) (hr : ∀ f, (V f).rounds = (V 0).rounds)
    (vk ctx a nonce p s i : Bytes) :
    (∃ st, Spec.Outcome (fun f => PingPong.leaderInit (V f) vk ctx a nonce p s) (.ok st)) ∧
    (∃ st, Spec.Outcome (fun f => PingPong.helperInit (V f) vk ctx a nonce p s i) (.ok st)) ∧
    ∀ isLeader st inbounds, ∃ st',
      Spec.Outcome (fun f => Spec.receive (V f) isLeader ctx a st inbounds) (.ok st') := by
  have key : ∀ {r : ℕ → Res (PingPongState VState VShare OutShare)}, Term r →
      (∀ f, (∃ st, r f = .ok st) ∨ r f = .error .fuel) → ∃ st, Spec.Outcome r (.ok st) := by
    intro r ⟨v, hv⟩ h
    obtain ⟨n, hn⟩ := hv.2.1
    have hn := hn n le_rfl
    rcases h n with ⟨st, h⟩ | h
    · exact ⟨st, (hn.symm.trans h) ▸ hv⟩
    · exact absurd (hn.symm.trans h) hv.1
  have h40 := fun f => C40_never_raises (V f) vk ctx a nonce p s i
  exact ⟨key (term_leaderInit hV _ _ _ _ _ _) fun f => (h40 f).1,
    key (term_helperInit hV hr _ _ _ _ _ _ _) fun f => (h40 f).2.1,
    fun isLeader st ms => key (term_receive hV hr isLeader ctx a ms st) fun f => (h40 f).2.2 isLeader st ms⟩

end

/-! ### The hypotheses are met, and they are needed -/

/-- Primitives that return zeros. -/
def zeroPrims : Prims where
  turboShake _ _ _ := 0
  aes _ _ := List.replicate 16 0
  aes_length _ _ _ := by simp

/-- Primitives for which no chunk is accepted. -/
def onesPrims : Prims where
  turboShake _ _ _ := 255
  aes _ _ := List.replicate 16 255
  aes_length _ _ _ := by simp

theorem zeroPrims_ends {F : Type} [PyField F] : Spec.SamplingEnds (XofTurboShake128 zeroPrims 0) F := by
  intro st
  have h0 : ∀ n, fromLeBytes ((List.range n).map fun _ => (0 : UInt8)) = 0 := fun n => by
    rw [List.map_const', List.length_range]
    induction n with
    | zero => rfl
    | succ n ih => simp [List.replicate_succ, fromLeBytes, natOfLe] at ih ⊢; exact ih
  refine ⟨1, .inr ⟨[_], _, _, 0, rfl, List.mem_singleton.2 rfl, ?_⟩⟩
  show Spec.sample F ((List.range (PyField.encSize F)).map fun _ => (0 : UInt8)) = some 0
  unfold Spec.sample
  dsimp only
  rw [h0, Nat.zero_mod, if_pos (lt_of_le_of_lt (Nat.zero_le _) (PyField.toNat_lt (0 : F)))]
  simp

/-- `Prio3Count` with three Aggregators: its constructor succeeds whatever the bound, all its methods terminate, and an
execution with two measurements meets the hypotheses of `C54_prio3_run`. -/
example : ∃ P : (f : ℕ) → Prio3 (XofTurboShake128 zeroPrims f) Field64 Int Nat,
    (∀ f, Prio3Count zeroPrims f 3 = .ok (P f)) ∧ (Spec.AllTerminate fun f => (P f).vdaf) ∧
    ∃ v, Spec.Outcome (fun f => runVdaf (P f).vdaf (List.replicate 32 7) () [1, 2]
      [(1, List.replicate 16 0, List.replicate 96 5), (0, List.replicate 16 1, List.replicate 96 6)]) v := by
  have hP : ∀ f, Prio3Count zeroPrims f 3 = .ok ⟨1, 3, 1, Count Field64, 5⟩ := fun f => rfl
  refine ⟨fun f => ⟨1, 3, 1, Count Field64, 5⟩, hP, C54_prio3 zeroPrims_ends .count hP, ?_⟩
  obtain ⟨v, hv, -⟩ := C54_prio3_run (P := fun f => ⟨1, 3, 1, Count Field64, 5⟩) (fn := Spec.countFun) zeroPrims_ends
    hP (fun f => (instance_count (hP f)).1) (List.replicate 32 7) [1, 2] rfl (by decide)
    [(1, List.replicate 16 0, List.replicate 96 5), (0, List.replicate 16 1, List.replicate 96 6)]
    (by
      intro m hm
      rcases List.mem_cons.1 hm with rfl | hm
      · exact ⟨.inr rfl, rfl, rfl⟩
      · obtain rfl := List.mem_singleton.1 hm
        exact ⟨.inl rfl, rfl, rfl⟩)
  exact ⟨v, hv⟩

example : Spec.AllTerminate fun f => (⟨⟨2, 5⟩⟩ : Poplar1).vdaf zeroPrims f :=
  C54_poplar1 zeroPrims_ends zeroPrims_ends _

/-- For `onesPrims` the sampler for `Field64` never returns. -/
theorem C54_sampling_may_not_end : ¬ Spec.SamplingEnds (XofTurboShake128 onesPrims 0) Field64 := by
  have key : ∀ k (st : TurboShakeState), ∃ st', Spec.readAll (XofTurboShake128 onesPrims 0) st
      (List.replicate k 8) = .ok (List.replicate k (List.replicate 8 255), st') := by
    intro k
    induction k with
    | zero => exact fun st => ⟨st, rfl⟩
    | succ k ih =>
      intro st
      obtain ⟨st', h⟩ := ih ⟨st.m, st.pos + 8⟩
      refine ⟨st', ?_⟩
      rw [List.replicate_succ, List.replicate_succ]
      simp only [Spec.readAll]
      have : (XofTurboShake128 onesPrims 0).next st 8 =
        .ok (List.replicate 8 255, (⟨st.m, st.pos + 8⟩ : TurboShakeState)) := rfl
      rw [this]
      dsimp only
      rw [h]
  intro h
  obtain ⟨k, hk⟩ := h ⟨[], 0⟩
  obtain ⟨st', h'⟩ := key k ⟨[], 0⟩
  have h8 : PyField.encSize Field64 = 8 := rfl
  rw [h8] at hk
  rcases hk with ⟨e, he⟩ | ⟨cs, st'', c, x, h1, h2, h3⟩
  · rw [h'] at he; cases he
  · rw [h'] at h1
    cases h1
    obtain ⟨-, rfl⟩ := List.mem_replicate.1 h2
    have : Spec.sample Field64 (List.replicate 8 255) = none := by decide +kernel
    rw [this] at h3
    cases h3

end Vdaf
