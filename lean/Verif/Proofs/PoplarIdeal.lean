import Verif.Proofs.PoplarCells
import Verif.Proofs.Drivers

/-! The attack, with the honest Aggregator's part computed from the values of the corrupted one; the experiment in which the
secrets of the reports are expanded into fresh bytes. -/

set_option linter.unusedSectionVars false

namespace Vdaf.PO
open Spec (bytesAt poplarIdpf levelKind Askable TreeReply TreeMove Memory TreeView TreeStrategy treeRespond treePlay treeReport
  treeView coinsOf)

/-- The parameters of the attack.  The first `16 * B` bytes of the streams matter. -/
structure Env where
  prims : Prims
  fuel : ℕ
  bits : ℕ
  verifyKey : Bytes
  ctx : Bytes
  b : ℕ
  n : ℕ
  cands : ℕ → List (List Bool)
  nonces : ℕ → Bytes
  strat : TreeStrategy
  q : ℕ
  B : ℕ

structure Env.Ok (e : Env) : Prop where
  fuel : e.fuel < 2 ^ 120
  bits : 0 < e.bits
  ctx : Idpf.CtxOk e.ctx
  key : e.verifyKey.length = 32
  b : e.b < 2
  nonces : ∀ k < e.n, (e.nonces k).length = 16
  B : e.B ≤ 2 ^ 128
  N : 32 * e.fuel * (e.bits + 2) + 32 ≤ 16 * e.B
  cands : ∀ k < e.n, ∀ p ∈ e.cands k, p.length = e.bits

/-- Fresh streams in place of those of the secrets of a report -/
structure Fresh where
  sh : Str
  ci : Str
  cl : Str
  node : ℕ → ℕ → Str

/-- A report, and what matters for it -/
structure Rep where
  s : Sh
  alpha : List Bool
  nonce : Bytes
  key : Bytes
  seed : Bytes

def Rep.item (b : ℕ) (r : Rep) : List CorrectionWord × Poplar1InputShare := (r.s.pub, r.s.share r.key r.seed b)

section
variable (e : Env) (P : Prims)

def Env.rtree (k : ℕ) (alpha : List Bool) (rand : Bytes) : Tree :=
  ⟨e.b, bitOf alpha, srcOf P e.bits e.ctx (e.nonces k), srcOf P e.bits e.ctx (e.nonces k), keyOf rand e.b, keyOf rand (1 - e.b)⟩

def Env.itree (k : ℕ) (alpha : List Bool) (rand : Bytes) (f : Fresh) : Tree :=
  ⟨e.b, bitOf alpha, srcOf P e.bits e.ctx (e.nonces k), fun ℓ u _ => f.node ℓ u, keyOf rand e.b, keyOf rand (1 - e.b)⟩

def Env.rshard (k : ℕ) (alpha : List Bool) (rand : Bytes) : Res Sh :=
  shardS e.bits e.fuel (Spec.shardStream P (ssOf rand) e.ctx (e.nonces k))
    (fun j => Spec.corrInnerStream P (seedOf rand j) e.ctx (e.nonces k) j)
    (fun j => Spec.corrLeafStream P (seedOf rand j) e.ctx (e.nonces k) j)
    (fun ks kl => (e.rtree P k alpha rand).pub e.fuel e.bits (gBeta e.bits ks kl))

def Env.ishard (k : ℕ) (alpha : List Bool) (rand : Bytes) (f : Fresh) : Res Sh :=
  shardS e.bits e.fuel f.sh
    (fun j => if j = e.b then Spec.corrInnerStream P (seedOf rand j) e.ctx (e.nonces k) j else f.ci)
    (fun j => if j = e.b then Spec.corrLeafStream P (seedOf rand j) e.ctx (e.nonces k) j else f.cl)
    (fun ks kl => (e.itree P k alpha rand f).pub e.fuel e.bits (gBeta e.bits ks kl))

def Env.probe (k : ℕ) (alpha : List Bool) (rand : Bytes) (s : Sh) : Res Rep :=
  mapRes (fun p => (poplarIdpf e.bits).evalPrefix P e.fuel e.b s.pub (keyOf rand e.b) (e.bits - 1) e.ctx (e.nonces k) p)
    (e.cands k) >>= fun _ => .ok ⟨s, alpha, e.nonces k, keyOf rand e.b, seedOf rand e.b⟩

def Env.rrep (k : ℕ) (alpha : List Bool) (rand : Bytes) : Res Rep := e.rshard P k alpha rand >>= e.probe P k alpha rand
def Env.irep (k : ℕ) (alpha : List Bool) (rand : Bytes) (f : Fresh) : Res Rep :=
  e.ishard P k alpha rand f >>= e.probe P k alpha rand

def Env.start (ss : List Rep) (k : ℕ) (param : Poplar1AggParam) : Res (Poplar1VerifyState × FieldVec) :=
  getI ss k >>= fun r => hinit e.bits e.fuel P e.verifyKey e.ctx r.nonce e.b r.alpha r.key r.s param

def Env.play (ss : List Rep) (t : ℕ) : Res (List TreeReply × Memory) :=
  treePlay P e.fuel e.bits e.ctx e.n (e.start P ss) (e.strat (ss.map (Rep.item e.b))) t

def Env.gview (rep : ℕ → Res Rep) : Res TreeView :=
  mapRes rep (List.range e.n) >>= fun ss => e.play P ss e.q >>= fun r => .ok (ss.map (Rep.item e.b), r.1)

end

/-- Two functions for the beginning of the verification that agree -/
theorem treePlay_congr {prims : Prims} {fuel bits : ℕ} {ctx : Bytes} {n : ℕ}
    {start start' : ℕ → Poplar1AggParam → Res (Poplar1VerifyState × FieldVec)}
    (h : ∀ k < n, ∀ param, Askable bits param → start k param = start' k param) (σ : List TreeReply → TreeMove) (q : ℕ) :
    treePlay prims fuel bits ctx n start σ q = treePlay prims fuel bits ctx n start' σ q := by
  induction q with
  | zero => rfl
  | succ q ih =>
    unfold treePlay
    rw [ih]
    congr 1
    funext r
    obtain ⟨replies, mem⟩ := r
    dsimp only
    congr 1
    generalize σ replies = m
    cases m with
    | start k param =>
      unfold treeRespond
      dsimp only
      split
      · rename_i hc
        rw [h k hc.1 param hc.2.1]
      · rfl
    | _ => rfl

theorem mapRes_bind_ok {α β γ : Type} (f : α → Res β) (h : β → γ) (l : List α) :
    mapRes (fun a => f a >>= fun b => .ok (h b)) l = (mapRes f l >>= fun bs => .ok (bs.map h)) := by
  induction l with
  | nil => rfl
  | cons a l ih =>
    simp only [mapRes_cons, ih]
    cases f a with
    | error e => rfl
    | ok b =>
      simp only [Except.ok_bind']
      cases mapRes f l <;> rfl

theorem keyOf_length {rand : Bytes} (h : rand.length = 128) {j : ℕ} (hj : j < 2) : (keyOf rand j).length = 16 := by
  simp [keyOf, slice, h]; omega
theorem seedOf_length {rand : Bytes} (h : rand.length = 128) {j : ℕ} (hj : j < 2) : (seedOf rand j).length = 32 := by
  simp [seedOf, slice, h]; omega
theorem ssOf_length {rand : Bytes} (h : rand.length = 128) : (ssOf rand).length = 32 := by
  simp [ssOf, slice, h]

section
variable {e : Env} (he : e.Ok) {P : Prims}
include he

theorem Env.rep_eq {k : ℕ} (hk : k < e.n) {alpha : List Bool} (ha : alpha.length = e.bits) {rand : Bytes} (hr : rand.length = 128) :
    treeReport P e.fuel e.bits e.ctx e.b (e.cands k) alpha (e.nonces k) rand =
      (e.rrep P k alpha rand >>= fun r => .ok (r.s.pub, r.s.share r.key r.seed e.b,
        r.s.share (keyOf rand (1 - e.b)) (seedOf rand (1 - e.b)) (1 - e.b))) := by
  have hb := he.b
  have h4 : ord e.b (keyOf rand e.b) (keyOf rand (1 - e.b)) = (keyOf rand 0, keyOf rand 1) := by
    interval_cases hh : e.b <;> rfl
  unfold treeReport
  rw [shard_eq (T := e.rtree P k alpha rand) he.fuel he.bits he.ctx ha (he.nonces k hk) hr (by show e.b = 0 ∨ e.b = 1; omega) rfl rfl rfl h4]
  change (((e.rshard P k alpha rand >>= fun s => _) >>= fun r => _) : Res _) = _
  unfold Env.rrep
  cases e.rshard P k alpha rand with
  | error _ => rfl
  | ok s =>
    simp only [Except.ok_bind']
    have g : ∀ j < 2, getI [s.share (keyOf rand 0) (seedOf rand 0) 0, s.share (keyOf rand 1) (seedOf rand 1) 1] j =
        .ok (s.share (keyOf rand j) (seedOf rand j) j) := by
      intro j hj; interval_cases j <;> rfl
    rw [g e.b hb, g (1 - e.b) (by omega)]
    simp only [Except.ok_bind']
    have h5 : mapRes (fun p => (poplarIdpf e.bits).eval P e.fuel e.b s.pub (s.share (keyOf rand e.b) (seedOf rand e.b) e.b).key
        ((e.bits - 1 : ℕ) : ℤ) [p] e.ctx (e.nonces k)) (e.cands k) = mapRes (fun p => (poplarIdpf e.bits).evalPrefix P e.fuel e.b s.pub
          (keyOf rand e.b) (e.bits - 1) e.ctx (e.nonces k) p >>= fun y => .ok [y]) (e.cands k) := by
      apply mapRes_congr
      intro p _
      rw [Idpf.eval_eq (poplarIdpf e.bits) P e.fuel hb s.pub _ (show e.bits - 1 < e.bits by have := he.bits; omega)
        (List.nodup_singleton p), mapRes_cons, mapRes_nil]
      show ((poplarIdpf e.bits).evalPrefix P e.fuel e.b s.pub (keyOf rand e.b) (e.bits - 1) e.ctx (e.nonces k) p >>= fun _ => _) = _
      cases (poplarIdpf e.bits).evalPrefix P e.fuel e.b s.pub (keyOf rand e.b) (e.bits - 1) e.ctx (e.nonces k) p with
      | error x => rfl
      | ok y => rfl
    rw [h5]
    unfold Env.probe
    rw [mapRes_bind_ok]
    cases mapRes (fun p => (poplarIdpf e.bits).evalPrefix P e.fuel e.b s.pub (keyOf rand e.b) (e.bits - 1) e.ctx (e.nonces k) p)
      (e.cands k) <;> rfl

/-- The attack -/
theorem Env.view_eq {ms : ℕ → List Bool} (hm : ∀ k < e.n, (ms k).length = e.bits) {x : Fin e.n → Bytes}
    (hx : ∀ k, (x k).length = 128) :
    treeView P e.fuel e.bits e.verifyKey e.ctx e.b e.n e.cands ms (coinsOf e.nonces x) e.strat e.q =
      e.gview P fun k => e.rrep P k (ms k) (coinsOf e.nonces x k).rand := by
  have hb := he.b
  have hr : ∀ k < e.n, (coinsOf e.nonces x k).rand.length = 128 := by
    intro k hk
    unfold coinsOf
    dsimp only
    rw [dif_pos hk]
    exact hx _
  unfold treeView Env.gview
  obtain ⟨rand, hrand⟩ : ∃ rand, rand = fun k => (coinsOf e.nonces x k).rand := ⟨_, rfl⟩
  have hr' : ∀ k < e.n, (rand k).length = 128 := by rw [hrand]; exact hr
  obtain ⟨other, ho⟩ : ∃ other : Rep → ℕ → Poplar1InputShare, other = fun r k =>
    r.s.share (keyOf (rand k) (1 - e.b)) (seedOf (rand k) (1 - e.b)) (1 - e.b) := ⟨_, rfl⟩
  have h1 : mapRes (fun k => treeReport P e.fuel e.bits e.ctx e.b (e.cands k) (ms k) (coinsOf e.nonces x k).nonce
      (coinsOf e.nonces x k).rand) (List.range e.n) =
      (mapRes (fun k => e.rrep P k (ms k) (rand k) >>= fun r => .ok (r, k)) (List.range e.n) >>= fun rs =>
        .ok (rs.map fun r => (r.1.s.pub, r.1.s.share r.1.key r.1.seed e.b, other r.1 r.2))) := by
    rw [← mapRes_bind_ok]
    apply mapRes_congr
    intro k hk
    rw [List.mem_range] at hk
    have := e.rep_eq he (P := P) hk (hm k hk) (hr k hk)
    rw [hrand, ho]
    refine Eq.trans this ?_
    dsimp only
    rw [hrand]
    dsimp only
    cases e.rrep P k (ms k) (coinsOf e.nonces x k).rand <;> rfl
  have h2 : mapRes (fun k => e.rrep P k (ms k) (rand k)) (List.range e.n) =
      (mapRes (fun k => e.rrep P k (ms k) (rand k) >>= fun r => .ok (r, k)) (List.range e.n) >>= fun rs =>
        .ok (rs.map Prod.fst)) := by
    rw [← mapRes_bind_ok]
    apply mapRes_congr
    intro k hk
    cases e.rrep P k (ms k) (rand k) <;> rfl
  have h2' : mapRes (fun k => e.rrep P k (ms k) (coinsOf e.nonces x k).rand) (List.range e.n) =
      (mapRes (fun k => e.rrep P k (ms k) (rand k) >>= fun r => .ok (r, k)) (List.range e.n) >>= fun rs =>
        .ok (rs.map Prod.fst)) := by rw [← h2, hrand]
  rw [h1, h2']
  cases h3 : mapRes (fun k => e.rrep P k (ms k) (rand k) >>= fun r => .ok (r, k)) (List.range e.n) with
  | error _ => rfl
  | ok rs =>
    simp only [Except.ok_bind', List.map_map]
    unfold Env.play
    rw [List.map_map]
    have hv : (List.map ((fun r : List CorrectionWord × Poplar1InputShare × Poplar1InputShare => (r.1, r.2.1)) ∘
        fun r : Rep × ℕ => (r.1.s.pub, r.1.s.share r.1.key r.1.seed e.b, other r.1 r.2)) rs) =
        List.map (Rep.item e.b ∘ Prod.fst) rs := rfl
    rw [hv]
    rw [treePlay_congr (start' := e.start P (rs.map Prod.fst))]
    · rfl
    · intro k hk param hp
      obtain ⟨r, h4, h5⟩ := (mapRes_range_iff.1 h3).2 k hk
      obtain ⟨r', h6, h7⟩ := Except.bind_eq_ok.1 h4
      cases h7
      unfold Env.start
      rw [getI_of_some (x := (r'.s.pub, r'.s.share r'.key r'.seed e.b, other r' k)) (by rw [List.getElem?_map, h5]; rfl),
        getI_of_some (x := r') (by rw [List.getElem?_map, h5]; rfl)]
      simp only [Except.ok_bind']
      unfold Env.rrep Env.probe at h6
      obtain ⟨s, h8, h9⟩ := Except.bind_eq_ok.1 h6
      obtain ⟨_, -, h9⟩ := Except.bind_eq_ok.1 h9
      cases h9
      obtain ⟨p1, p2, p3, hD⟩ := shardS_drawn.1 h8
      obtain ⟨q1, hu⟩ := hD.u (1 - e.b) (by omega)
      obtain ⟨q2, hw⟩ := hD.w (1 - e.b) (by omega)
      dsimp only
      rw [ho]
      exact verifyInit_hinit (T := e.rtree P k (ms k) (rand k)) he.fuel he.ctx (hm k hk) (he.nonces k hk) rfl hb rfl rfl rfl
        (keyOf_length (hr' k hk) hb) (keyOf_length (hr' k hk) (by omega)) (seedOf_length (hr' k hk) (by omega))
        (sampS_ok hD.ks).1 (sampS_ok hD.kl).1 hD.pub hu hw hp

end
end Vdaf.PO
