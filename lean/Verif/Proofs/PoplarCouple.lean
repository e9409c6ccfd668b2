import Verif.Proofs.PoplarIdeal

/-! The attack, and the experiment with fresh bytes, agree unless an input of an oracle is met twice. -/

set_option linter.unusedSectionVars false

namespace Vdaf.PO
open Spec (bytesAt poplarIdpf levelKind Askable TreeReply TreeMove Memory TreeView TreeStrategy treeRespond treePlay treeReport
  treeView coinsOf tag)

/-! ### Sharding with streams that agree -/

theorem pairsS_congr {bits fuel N : ℕ} {sh sh' : Str} (h : ∀ i < N, sh i = sh' i) {pos : ℕ} (hp : pos + 32 * fuel * bits ≤ N)
    (AB : (ℓ : ℕ) → (κ : Kind) → Fk κ × Fk κ) : pairsS bits fuel sh pos AB = pairsS bits fuel sh' pos AB := by
  unfold pairsS
  have key : ∀ n, ∀ pos, pos + 32 * fuel * n ≤ N → ∀ (l : List ℕ), l.length = n → ∀ st,
      forFold l (pos, st) (pairStep bits fuel sh AB) = forFold l (pos, st) (pairStep bits fuel sh' AB) := by
    intro n
    induction n with
    | zero => intro pos _ l hl st; rw [List.length_eq_zero_iff.1 hl]; rfl
    | succ n ih =>
      intro pos hp l hl st
      obtain ⟨a, l, rfl⟩ := List.exists_cons_of_length_eq_add_one hl
      rw [forFold_cons, forFold_cons]
      have hs := Nat.mul_le_mul_left fuel (Idpf.encSize_le (levelKind bits a))
      have h1 : pairStep bits fuel sh AB (pos, st) a = pairStep bits fuel sh' AB (pos, st) a := by
        unfold pairStep
        rw [sampS_congr fun i _ hi => h i (by rw [Nat.mul_succ] at hp; omega)]
      rw [h1]
      cases h2 : pairStep bits fuel sh' AB (pos, st) a with
      | error _ => rfl
      | ok st' =>
        simp only [Except.ok_bind']
        obtain ⟨pos', st'⟩ := st'
        unfold pairStep at h2
        obtain ⟨r, h3, h4⟩ := Except.bind_eq_ok.1 h2
        cases h4
        have := (sampS_ok h3).2.2
        rw [Nat.mul_succ] at hp
        exact ih _ (by omega) l (by simpa using hl) _
  exact key bits pos hp _ (by simp) _

theorem shardS_congr {bits fuel N : ℕ} (hN : 32 * fuel * (bits + 2) ≤ N) {sh sh' : Str} (h : ∀ i < N, sh i = sh' i)
    {ci ci' cl cl' : ℕ → Str} (h1 : ∀ j < 2, ∀ i < N, ci j i = ci' j i) (h2 : ∀ j < 2, ∀ i < N, cl j i = cl' j i)
    {g g' : List (Fk .inner) → List (Fk .leaf) → Res (List CorrectionWord)} (hg : ∀ ks kl, g ks kl = g' ks kl) :
    shardS bits fuel sh ci cl g = shardS bits fuel sh' ci' cl' g' := by
  have hs : ∀ κ, fuel * PyField.encSize (Fk κ) ≤ 32 * fuel := fun κ => by
    have := Nat.mul_le_mul_left fuel (Idpf.encSize_le κ); omega
  have hN' : 32 * fuel * bits + 2 * (32 * fuel) ≤ N := by rw [Nat.mul_add] at hN; omega
  have hg' : g = g' := by funext ks kl; exact hg ks kl
  subst hg'
  have e1 : ∀ n, sampS (Fk .inner) sh fuel 0 n = sampS (Fk .inner) sh' fuel 0 n := fun n =>
    sampS_congr fun i _ hi => h i (by have := hs .inner; omega)
  have e3 : ∀ j < 2, ∀ κ n, sampS (Fk κ) (ci j) fuel 0 n = sampS (Fk κ) (ci' j) fuel 0 n := fun j hj κ n =>
    sampS_congr fun i _ hi => h1 j hj i (by have := hs κ; omega)
  have e4 : ∀ j < 2, ∀ κ n, sampS (Fk κ) (cl j) fuel 0 n = sampS (Fk κ) (cl' j) fuel 0 n := fun j hj κ n =>
    sampS_congr fun i _ hi => h2 j hj i (by have := hs κ; omega)
  unfold shardS
  rw [e1, e3 0 (by omega), e3 1 (by omega), e4 0 (by omega), e4 1 (by omega)]
  cases hk : sampS (Fk .inner) sh' fuel 0 (bits - 1) with
  | error _ => rfl
  | ok k1 =>
    simp only [Except.ok_bind']
    have a1 := (sampS_ok (F := Fk .inner) hk).2.2
    have a2 := hs .inner
    have a3 := hs .leaf
    rw [sampS_congr (F := Fk .leaf) fun i _ hi => h i (by omega)]
    cases hk2 : sampS (Fk .leaf) sh' fuel k1.2 1 with
    | error _ => rfl
    | ok k2 =>
      simp only [Except.ok_bind']
      have a4 := (sampS_ok (F := Fk .leaf) hk2).2.2
      have e5 : ∀ AB, pairsS bits fuel sh k2.2 AB = pairsS bits fuel sh' k2.2 AB := pairsS_congr h (by omega)
      simp only [e5]

theorem aggregate_prims (bits fuel : ℕ) (P P' : Prims) (param : Poplar1AggParam) (outs : List FieldVec) :
    Spec.aggregate ((⟨poplarIdpf bits⟩ : Poplar1).vdaf P fuel) param outs = Spec.aggregate ((⟨poplarIdpf bits⟩ : Poplar1).vdaf P' fuel) param outs := by
  unfold Spec.aggregate Poplar1.vdaf
  dsimp only

/-! ### The secret cells -/

/-- The secrets of a report: the seed of the Client's own randomness, that of the honest Aggregator's correlated randomness
(two purposes), and the honest Aggregator's nodes on the path (two purposes) -/
abbrev Lab (bits : ℕ) := Fin 3 ⊕ (Fin bits × Fin 2)

section
variable (e : Env)

abbrev Env.Idx := Fin e.n × Lab e.bits × Fin (16 * e.B)

def Env.strm (σ : e.Idx → UInt8) (k : ℕ) (l : Lab e.bits) (i : ℕ) : UInt8 :=
  if h : k < e.n ∧ i < 16 * e.B then σ (⟨k, h.1⟩, l, ⟨i, h.2⟩) else 0

def Env.fresh (σ : e.Idx → UInt8) (k : ℕ) : Fresh where
  sh := e.strm σ k (.inl 0)
  ci := e.strm σ k (.inl 1)
  cl := e.strm σ k (.inl 2)
  node ℓ u i := if h : ℓ < e.bits ∧ u < 2 then e.strm σ k (.inr (⟨ℓ, h.1⟩, ⟨u, h.2⟩)) i else 0

/-- The stream of a label -/
def Fresh.at {bits : ℕ} (f : Fresh) : Lab bits → Str
  | .inl 0 => f.sh
  | .inl 1 => f.ci
  | .inl 2 => f.cl
  | .inr (ℓ, u) => f.node ℓ u

theorem Env.fresh_at (σ : e.Idx → UInt8) (k : ℕ) (l : Lab e.bits) : (e.fresh σ k).at l = e.strm σ k l := by
  match l with
  | .inl 0 | .inl 1 | .inl 2 => rfl
  | .inr (ℓ, u) =>
    funext i
    show dite _ _ _ = _
    rw [dif_pos ⟨ℓ.2, u.2⟩]

def Tree.seedAt (T : Tree) (ℓ u : ℕ) : Bytes := if u = 0 then (T.st ℓ).2.2 else T.xj ℓ

/-- The secret with a label -/
def Env.labSeed (T : Tree) (rand : Bytes) : Lab e.bits → Bytes
  | .inl 0 => ssOf rand
  | .inl 1 => seedOf rand (1 - e.b)
  | .inl 2 => seedOf rand (1 - e.b)
  | .inr (ℓ, u) => T.seedAt ℓ u

/-- The cells of the expansion of a secret -/
def Env.labCell (k : ℕ) : Lab e.bits → Bytes → ℕ → Cell
  | .inl 0, seed => turboCell seed (tag 6 1 e.ctx) (e.nonces k)
  | .inl 1, seed => turboCell seed (tag 6 2 e.ctx) (UInt8.ofNat (1 - e.b) :: e.nonces k)
  | .inl 2, seed => turboCell seed (tag 6 3 e.ctx) (UInt8.ofNat (1 - e.b) :: e.nonces k)
  | .inr (ℓ, u), seed => nodeCell e.prims e.bits e.ctx (e.nonces k) ℓ u seed

def Env.secret (T : Tree) (rand : Bytes) (k : ℕ) (l : Lab e.bits) : ℕ → Cell := e.labCell k l (e.labSeed T rand l)

/-- The cells of the corrupted Aggregator's nodes on a path -/
def Env.pathCells (T : Tree) (k : ℕ) (p : ℕ → Bool) : Set Cell :=
  {c | ∃ ℓ < e.bits, ∃ j < e.B,
    c = nodeCell e.prims e.bits e.ctx (e.nonces k) ℓ 0 (path T.Sb T.cs T.cc T.keyb (decide (T.b ≠ 0)) p ℓ).1 j ∨
    c = nodeCell e.prims e.bits e.ctx (e.nonces k) ℓ 1 (kid T.Sb T.cs T.cc T.keyb (decide (T.b ≠ 0)) p ℓ) j}

/-- The cells that are read for a move -/
def Env.moveCells (T : ℕ → Tree) : TreeMove → Set Cell
  | .turboShake m => {.inl m}
  | .cipher key block => {.inr (key, block)}
  | .start k param => {c | k < e.n ∧ Askable e.bits param ∧ ∃ p ∈ param.2, c ∈ e.pathCells (T k) k (bitOf p)}
  | _ => ∅

/-- The cells that are read in the attack, but for those of the secrets -/
def Env.known (P : Prims) (T : ℕ → Tree) (rep : ℕ → Res Rep) : Set Cell :=
  {c | ∃ k < e.n, ∃ p ∈ e.cands k, c ∈ e.pathCells (T k) k (bitOf p)} ∪
  {c | ∃ ss, mapRes rep (List.range e.n) = .ok ss ∧ ∃ t < e.q, ∃ r, e.play P ss t = .ok r ∧
    c ∈ e.moveCells T (e.strat (ss.map (Rep.item e.b)) r.1)}

/-- The oracle `O'` is `O`, with the streams `f` for the secrets. -/
structure Env.Coupled (ms : ℕ → List Bool) (rand : ℕ → Bytes) (O O' : Pt → UInt8) (f : ℕ → Fresh) : Prop where
  off : ∀ c ∈ e.known (primsO e.prims O) (fun k => e.itree (primsO e.prims O) k (ms k) (rand k) (f k))
    (fun k => e.irep (primsO e.prims O) k (ms k) (rand k) (f k)), ∀ i, O' (ptOf c i) = O (ptOf c i)
  inner : ∀ k < e.n, Spec.corrInnerStream (primsO e.prims O') (seedOf (rand k) e.b) e.ctx (e.nonces k) e.b =
    Spec.corrInnerStream (primsO e.prims O) (seedOf (rand k) e.b) e.ctx (e.nonces k) e.b
  leaf : ∀ k < e.n, Spec.corrLeafStream (primsO e.prims O') (seedOf (rand k) e.b) e.ctx (e.nonces k) e.b =
    Spec.corrLeafStream (primsO e.prims O) (seedOf (rand k) e.b) e.ctx (e.nonces k) e.b
  verify : ∀ k < e.n, ∀ level, Spec.verifyStream (primsO e.prims O') e.verifyKey e.ctx (e.nonces k) level =
    Spec.verifyStream (primsO e.prims O) e.verifyKey e.ctx (e.nonces k) level
  on : ∀ k < e.n, ∀ l, ∀ i < 16 * e.B,
    readC O' (e.secret (e.itree (primsO e.prims O) k (ms k) (rand k) (f k)) (rand k) k l) i = (f k).at l i

end

section
variable {e : Env} (he : e.Ok) {ms : ℕ → List Bool} (hm : ∀ k < e.n, (ms k).length = e.bits) (hmc : ∀ k < e.n, ms k ∈ e.cands k)
  {rand : ℕ → Bytes} (hr : ∀ k < e.n, (rand k).length = 128) {O O' : Pt → UInt8} {f : ℕ → Fresh}
  (h : e.Coupled ms rand O O' f)
include he

theorem Env.Ok.N1 : 32 + 32 * e.fuel ≤ 16 * e.B := by
  have := he.N
  have h2 : 32 * e.fuel * 1 ≤ 32 * e.fuel * (e.bits + 2) := Nat.mul_le_mul_left _ (by omega)
  omega

include hr h

/-- The streams of the nodes of the corrupted Aggregator on a path that is met -/
theorem Env.Coupled.agree {k : ℕ} (hk : k < e.n) {p : ℕ → Bool}
    (hp : e.pathCells (e.itree (primsO e.prims O) k (ms k) (rand k) (f k)) k p ⊆
      e.known (primsO e.prims O) (fun k => e.itree (primsO e.prims O) k (ms k) (rand k) (f k))
        (fun k => e.irep (primsO e.prims O) k (ms k) (rand k) (f k))) :
    AgreeOn (16 * e.B) e.bits (srcOf (primsO e.prims O) e.bits e.ctx (e.nonces k)) (srcOf (primsO e.prims O') e.bits e.ctx (e.nonces k))
      (e.itree (primsO e.prims O) k (ms k) (rand k) (f k)).cs (e.itree (primsO e.prims O) k (ms k) (rand k) (f k)).cc
      (keyOf (rand k) e.b) (decide (e.b ≠ 0)) p := by
  intro ℓ hl
  have h1 : ∀ (s : ℕ → Cell) (i : ℕ), s (i / 16) ∈ e.pathCells (e.itree (primsO e.prims O) k (ms k) (rand k) (f k)) k p →
      readC O s i = readC O' s i := by
    intro s i hs
    unfold readC
    rw [h.off _ (hp hs)]
  constructor
  · intro i hi
    rw [srcOf_read _ _ _ _ _ _ _ (path_length (keyOf_length (hr k hk) he.b) ℓ),
      srcOf_read _ _ _ _ _ _ _ (path_length (keyOf_length (hr k hk) he.b) ℓ)]
    exact h1 _ i ⟨ℓ, hl, i / 16, by omega, Or.inl rfl⟩
  · intro i hi
    rw [srcOf_read _ _ _ _ _ _ _ (kid_length (cwSeed_length _ _ _)), srcOf_read _ _ _ _ _ _ _ (kid_length (cwSeed_length _ _ _))]
    exact h1 _ i ⟨ℓ, hl, i / 16, by omega, Or.inr rfl⟩

include hmc

theorem Env.Coupled.agrees {k : ℕ} (hk : k < e.n) :
    (e.itree (primsO e.prims O) k (ms k) (rand k) (f k)).Agrees (16 * e.B) e.bits (e.rtree (primsO e.prims O') k (ms k) (rand k)) := by
  obtain ⟨T, hT⟩ : ∃ T, T = e.itree (primsO e.prims O) k (ms k) (rand k) (f k) := ⟨_, rfl⟩
  have ha := h.agree he hr hk (p := bitOf (ms k)) fun c hc => Or.inl ⟨k, hk, ms k, hmc k hk, hc⟩
  have hb := keyOf_length (hr k hk) he.b
  have hj := keyOf_length (hr k hk) (j := 1 - e.b) (by have := he.b; omega)
  refine ⟨rfl, rfl, rfl, rfl, ?_, ?_, ?_, ?_⟩
  · intro ℓ hl i hi
    have := (ha ℓ hl).1 i hi
    erw [Tree.st_path (e.itree (primsO e.prims O) k (ms k) (rand k) (f k)) ℓ] at this
    exact this.symm
  · intro ℓ hl i hi
    have := h.on k hk (.inr (⟨ℓ, hl⟩, 0)) i hi
    show srcOf (primsO e.prims O') e.bits e.ctx (e.nonces k) ℓ 0 _ i = (f k).node ℓ 0 i
    rw [srcOf_read _ _ _ _ _ _ _ (Tree.st_length _ hb hj ℓ).2]
    exact this
  · intro ℓ hl i hi
    have := (ha ℓ hl).2 i hi
    erw [Tree.xb_kid (e.itree (primsO e.prims O) k (ms k) (rand k) (f k)) ℓ] at this
    exact this.symm
  · intro ℓ hl i hi
    have := h.on k hk (.inr (⟨ℓ, hl⟩, 1)) i hi
    show srcOf (primsO e.prims O') e.bits e.ctx (e.nonces k) ℓ 1 _ i = (f k).node ℓ 1 i
    rw [srcOf_read _ _ _ _ _ _ _ (Tree.xj_length _ ℓ)]
    exact this

/-- The secrets are the same. -/
theorem Env.Coupled.secret_eq {k : ℕ} (hk : k < e.n) (l : Lab e.bits) :
    e.secret (e.rtree (primsO e.prims O') k (ms k) (rand k)) (rand k) k l =
      e.secret (e.itree (primsO e.prims O) k (ms k) (rand k) (f k)) (rand k) k l := by
  have ha := h.agrees he hmc hr hk
  have h32 : 32 ≤ 16 * e.B := by have := he.N1; omega
  match l with
  | .inl 0 | .inl 1 | .inl 2 => rfl
  | .inr (ℓ, u) =>
    show nodeCell _ _ _ _ _ _ (Tree.seedAt _ _ _) = nodeCell _ _ _ _ _ _ (Tree.seedAt _ _ _)
    congr 1
    unfold Tree.seedAt
    have hs := ha.st h32 ℓ ℓ.2.le
    rw [hs, (ha.level h32 ℓ.2 hs).2.2.2.1]

theorem Env.Coupled.shard_eq {k : ℕ} (hk : k < e.n) :
    e.rshard (primsO e.prims O') k (ms k) (rand k) = e.ishard (primsO e.prims O) k (ms k) (rand k) (f k) := by
  have ha := h.agrees he hmc hr hk
  have hb := he.b
  unfold Env.rshard Env.ishard
  refine shardS_congr (N := 16 * e.B) (by have := he.N; omega) ?_ ?_ ?_ fun ks kl => ha.pub he.N1 _
  · intro i hi
    have := h.on k hk (.inl 0) i hi
    unfold Spec.shardStream
    rw [turboStream_read]
    exact this
  · intro j hj i hi
    split
    · rename_i hjb
      subst hjb
      rw [h.inner k hk]
    · have hj' : j = 1 - e.b := by omega
      subst hj'
      have := h.on k hk (.inl 1) i hi
      unfold Spec.corrInnerStream
      rw [turboStream_read]
      exact this
  · intro j hj i hi
    split
    · rename_i hjb
      subst hjb
      rw [h.leaf k hk]
    · have hj' : j = 1 - e.b := by omega
      subst hj'
      have := h.on k hk (.inl 2) i hi
      unfold Spec.corrLeafStream
      rw [turboStream_read]
      exact this

omit hmc in
/-- The corrupted Aggregator's value at a prefix that is met -/
theorem Env.Coupled.evalPrefix_eq {k : ℕ} (hk : k < e.n) {s : Sh}
    (hs : e.ishard (primsO e.prims O) k (ms k) (rand k) (f k) = .ok s) {level : ℕ} (hl : level < e.bits) {p : List Bool}
    (hp : p.length = level + 1) (hc : e.pathCells (e.itree (primsO e.prims O) k (ms k) (rand k) (f k)) k (bitOf p) ⊆
      e.known (primsO e.prims O) (fun k => e.itree (primsO e.prims O) k (ms k) (rand k) (f k))
        (fun k => e.irep (primsO e.prims O) k (ms k) (rand k) (f k))) :
    (poplarIdpf e.bits).evalPrefix (primsO e.prims O') e.fuel e.b s.pub (keyOf (rand k) e.b) level e.ctx (e.nonces k) p =
      (poplarIdpf e.bits).evalPrefix (primsO e.prims O) e.fuel e.b s.pub (keyOf (rand k) e.b) level e.ctx (e.nonces k) p := by
  obtain ⟨p1, p2, p3, hD⟩ := shardS_drawn.1 hs
  have hpub : (poplarIdpf e.bits).Shaped s.pub := Tree.pub_shaped (fun ℓ _ => rfl) hD.pub
  have ha := h.agree he hr hk hc
  have hb := keyOf_length (hr k hk) he.b
  have ha' : AgreeOn (16 * e.B) e.bits (srcOf (primsO e.prims O) e.bits e.ctx (e.nonces k))
      (srcOf (primsO e.prims O') e.bits e.ctx (e.nonces k)) (csOf s.pub) (ccOf s.pub) (keyOf (rand k) e.b) (decide (e.b ≠ 0)) (bitOf p) := by
    intro ℓ hl
    have h1 := Tree.pub_path hD.pub hl.le (bitOf p)
    have h2 := Tree.pub_kid hD.pub hl (bitOf p)
    change path (srcOf (primsO e.prims O) e.bits e.ctx (e.nonces k)) _ _ (keyOf (rand k) e.b) (decide (e.b ≠ 0)) _ ℓ = _ at h1
    change kid (srcOf (primsO e.prims O) e.bits e.ctx (e.nonces k)) _ _ (keyOf (rand k) e.b) (decide (e.b ≠ 0)) _ ℓ = _ at h2
    rw [h1, h2]
    exact ha ℓ hl
  rw [evalPrefix_evalS he.fuel he.ctx hpub hb e.b hl hp, evalPrefix_evalS he.fuel he.ctx hpub hb e.b hl hp,
    ha'.evalS_eq he.N1 hl]

theorem Env.Coupled.rep_eq (hcl : ∀ k < e.n, ∀ p ∈ e.cands k, p.length = e.bits) {k : ℕ} (hk : k < e.n) :
    e.rrep (primsO e.prims O') k (ms k) (rand k) = e.irep (primsO e.prims O) k (ms k) (rand k) (f k) := by
  unfold Env.rrep Env.irep
  rw [h.shard_eq he hmc hr hk]
  cases hs : e.ishard (primsO e.prims O) k (ms k) (rand k) (f k) with
  | error _ => rfl
  | ok s =>
    simp only [Except.ok_bind']
    unfold Env.probe
    rw [mapRes_congr fun p hp => h.evalPrefix_eq he hr hk hs (show e.bits - 1 < e.bits by have := he.bits; omega)
      (by rw [hcl k hk p hp]; have := he.bits; omega) fun c hc => Or.inl ⟨k, hk, p, hp, hc⟩]

theorem Env.Coupled.play_eq {ss : List Rep} (hss : mapRes (fun k => e.irep (primsO e.prims O) k (ms k) (rand k) (f k)) (List.range e.n) = .ok ss) :
    ∀ t ≤ e.q, e.play (primsO e.prims O') ss t = e.play (primsO e.prims O) ss t := by
  intro t
  induction t with
  | zero => exact fun _ => rfl
  | succ t ih =>
    intro ht
    have ih := ih (by omega)
    unfold Env.play at ih ⊢
    unfold treePlay
    rw [ih]
    cases hp : treePlay (primsO e.prims O) e.fuel e.bits e.ctx e.n (e.start (primsO e.prims O) ss)
      (e.strat (ss.map (Rep.item e.b))) t with
    | error _ => rfl
    | ok r =>
      obtain ⟨replies, mem⟩ := r
      simp only [Except.ok_bind']
      have hk : ∀ c ∈ e.moveCells (fun k => e.itree (primsO e.prims O) k (ms k) (rand k) (f k))
          (e.strat (ss.map (Rep.item e.b)) replies), c ∈ e.known (primsO e.prims O)
            (fun k => e.itree (primsO e.prims O) k (ms k) (rand k) (f k))
            (fun k => e.irep (primsO e.prims O) k (ms k) (rand k) (f k)) := fun c hc =>
        Or.inr ⟨ss, hss, t, by omega, _, hp, hc⟩
      congr 1
      generalize e.strat (ss.map (Rep.item e.b)) replies = move at hk
      cases move with
      | turboShake m =>
        show Except.ok _ = Except.ok _
        rw [primsO_turbo, primsO_turbo]
        have : (fun i => O' (.inl (m, i))) = fun i => O (.inl (m, i)) := by
          funext i
          exact h.off (.inl m) (hk _ rfl) i
        rw [this]
      | cipher key block =>
        show Except.ok _ = Except.ok _
        rw [primsO_aes, primsO_aes]
        have : (List.range 16).map (fun i => O' (.inr (key, block, i))) = (List.range 16).map fun i => O (.inr (key, block, i)) := by
          apply List.map_congr_left
          intro i hi
          have := h.off (.inr (key, block)) (hk _ rfl) i
          simp only [ptOf] at this
          rwa [Nat.mod_eq_of_lt (List.mem_range.1 hi)] at this
        rw [this]
      | start k param =>
        unfold treeRespond
        dsimp only
        split
        · rename_i hc
          obtain ⟨hkn, hask, -⟩ := hc
          have : e.start (primsO e.prims O') ss k param = e.start (primsO e.prims O) ss k param := by
            obtain ⟨r, h1, h2⟩ := (mapRes_range_iff.1 hss).2 k hkn
            unfold Env.start
            rw [getI_of_some h2]
            simp only [Except.ok_bind']
            unfold Env.irep Env.probe at h1
            obtain ⟨s, hs, h3⟩ := Except.bind_eq_ok.1 h1
            obtain ⟨_, -, h3⟩ := Except.bind_eq_ok.1 h3
            cases h3
            unfold hinit
            dsimp only
            have e1 : mapRes (fun p => (poplarIdpf e.bits).evalPrefix (primsO e.prims O') e.fuel e.b s.pub (keyOf (rand k) e.b) param.1
                e.ctx (e.nonces k) p >>= fun y => .ok (honestVal _ (ms k) (s.V.k param.1 _) p y)) param.2 =
                mapRes (fun p => (poplarIdpf e.bits).evalPrefix (primsO e.prims O) e.fuel e.b s.pub (keyOf (rand k) e.b) param.1
                e.ctx (e.nonces k) p >>= fun y => .ok (honestVal _ (ms k) (s.V.k param.1 _) p y)) param.2 := by
              apply mapRes_congr
              intro p hp
              rw [h.evalPrefix_eq he hr hkn hs hask.1 (hask.2.2.2 p hp) fun c hc => hk c ⟨hkn, hask, p, hp, hc⟩]
            rw [e1]
            congr 1
            funext value
            apply vtail_congr
            rw [verifyRand_sampS he.ctx he.key hask.2.1, verifyRand_sampS he.ctx he.key hask.2.1, h.verify k hkn]
          rw [this]
        · rfl
      | send k level message => rfl
      | collect param ks =>
        unfold treeRespond
        dsimp only
        rw [aggregate_prims]

/-- Both experiments lead to the same. -/
theorem Env.Coupled.view_eq (hcl : ∀ k < e.n, ∀ p ∈ e.cands k, p.length = e.bits) :
    e.gview (primsO e.prims O') (fun k => e.rrep (primsO e.prims O') k (ms k) (rand k)) =
      e.gview (primsO e.prims O) fun k => e.irep (primsO e.prims O) k (ms k) (rand k) (f k) := by
  unfold Env.gview
  rw [mapRes_congr fun k hk => h.rep_eq he hmc hr hcl (List.mem_range.1 hk)]
  cases hss : mapRes (fun k => e.irep (primsO e.prims O) k (ms k) (rand k) (f k)) (List.range e.n) with
  | error _ => rfl
  | ok ss =>
    simp only [Except.ok_bind']
    rw [h.play_eq he hmc hr hss e.q le_rfl]

end
end Vdaf.PO
