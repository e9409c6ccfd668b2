import Verif.Model.Primitives
import Verif.Model.TestCircuits
import Verif.Model.Poplar1
import Verif.Props.Agreement
import Lean.Data.Json

/-!
# The model on the test vectors of the repository

`/repo/test_vec` contains the inputs and all the intermediate messages of runs of the Python code.  `checkVdaf` replays
one of those files operation by operation on the model, with the primitives of `Model/Primitives.lean`, and compares
every message byte by byte; it also compares the result of `run_vdaf`.  This is no proof of anything: it is evidence that the
model is a model of the code.

Some of the smaller files are replayed by `#guard` when this module is built.  All of them are replayed (in about
forty minutes) by

    lake env lean --run Verif/Vectors.lean

which reads `/repo/test_vec`.
-/

namespace Vdaf.Vectors
open Lean

def pr := Primitives.prims
def FUEL := 100000

def hexv (c : Char) : Nat := if c.isDigit then c.toNat - 48 else c.toNat - 87
def unhex (s : String) : Bytes :=
  let rec go : List Char → Bytes
    | a :: b :: t => UInt8.ofNat (16 * hexv a + hexv b) :: go t
    | _ => []
  go s.toList

def J (j : Json) (k : String) : Json := (j.getObjVal? k).toOption.getD .null
def S (j : Json) (k : String) : Bytes := unhex ((J j k).getStr?.toOption.getD "")
def N (j : Json) (k : String) : Nat := (J j k).getNat?.toOption.getD 0
def A (j : Json) : List Json := (j.getArr?.toOption.getD #[]).toList
def HB (j : Json) : Bytes := unhex (j.getStr?.toOption.getD "")

def okB (r : Res Bytes) (want : Bytes) : Bool := match r with | .ok b => b == want | .error _ => false

section
variable {Meas AggParam PubShare InShare OutShare AggShare AggRes VState VShare VMsg : Type}

/-- The operations of test_utils.py:197-345 `gen_test_vec_for_vdaf`, in the order of the file; the list of the
mismatches. -/
def checkVdaf (V : VdafImpl Meas AggParam PubShare InShare OutShare AggShare AggRes VState VShare VMsg)
    (encOut : OutShare → Res Bytes) (decOut : AggParam → Bytes → Res OutShare) (encAgg : AggShare → Res Bytes)
    (decAgg : AggParam → Bytes → Res AggShare)
    (parse : Json → Meas) (res : AggRes → Json) (j : Json) : List String := Id.run do
  let mut errs : List String := []
  let ctx := S j "ctx"
  let key := S j "verify_key"
  let .ok aggParam := V.decodeAggParam (S j "agg_param") | return ["agg_param"]
  if !okB (V.encodeAggParam aggParam) (S j "agg_param") then errs := "agg_param" :: errs
  if V.shares ≠ N j "shares" then errs := "shares" :: errs
  if V.verifyKeySize ≠ key.length then errs := "key size" :: errs
  let reports := A (J j "reports")
  let mut states : List ((Nat × Nat × Nat) × VState) := []
  for op in A (J j "operations") do
    let name := (J op "operation").getStr?.toOption.getD ""
    let succ := (J op "success").getBool?.toOption.getD true
    let ri := N op "report_index"
    let rnd := N op "round"
    let ag := N op "aggregator_id"
    let rep := reports.getD ri .null
    let nonce := S rep "nonce"
    let ins := (A (J rep "input_shares")).map HB
    let vsh := (A (J rep "verifier_shares")).map fun x => (A x).map HB
    let vmsg := (A (J rep "verifier_messages")).map HB
    let outs := (A (J rep "out_shares")).map HB
    let mut good := false
    if name = "shard" then
      match V.shard ctx (parse (J rep "measurement")) nonce (S rep "rand") with
      | .ok (pub, inp) =>
        good := okB (V.encodePublicShare pub) (S rep "public_share") &&
          (inp.length == ins.length) && (inp.zip ins).all (fun (a, b) => okB (V.encodeInputShare a) b)
          && (S rep "rand").length == V.randSize && nonce.length == V.nonceSize
      | .error e => errs := s!"{repr e}" :: errs; good := !succ
    else if name = "verify_init" then
      match (do
          let pub ← V.decodePublicShare (S rep "public_share")
          let inp ← V.decodeInputShare ag (ins.getD ag [])
          V.verifyInit key ctx ag aggParam nonce pub inp : Res _) with
      | .ok (st, sh) =>
        good := okB (V.encodeVerifierShare sh) ((vsh.getD 0 []).getD ag [])
        states := ((ri, ag, 0), st) :: states
      | .error e => good := !succ; if succ then errs := s!"{repr e}" :: errs
    else if name = "verifier_shares_to_message" then
      let r : Res VMsg := do
        let shs ← mapRes (fun k => do
          let b ← getI (vsh.getD rnd []) k
          match states.find? (fun s => s.1 = (ri, k, rnd)) with
          | some (_, st) => V.decodeVerifierShare st b
          | none => .error .index) (List.range V.shares)
        V.sharesToMessage ctx aggParam shs
      match r with
      | .ok m => good := succ && okB (V.encodeVerifierMessage m) (vmsg.getD rnd [])
      | .error e => good := !succ && e != .fuel && e != .index; if succ then errs := s!"{repr e}" :: errs
    else if name = "verify_next" then
      match states.find? (fun s => s.1 = (ri, ag, rnd - 1)) with
      | none => errs := "no state" :: errs
      | some (_, st) =>
        match (do let m ← V.decodeVerifierMessage st (vmsg.getD (rnd - 1) []); V.verifyNext ctx st m : Res _) with
        | .ok (.cont st sh) =>
          good := succ && okB (V.encodeVerifierShare sh) ((vsh.getD rnd []).getD ag [])
          states := ((ri, ag, rnd), st) :: states
        | .ok (.out o) => good := succ && okB (encOut o) (outs.getD ag [])
        | .error e => good := !succ && e != .fuel; if succ then errs := s!"{repr e}" :: errs
    else if name = "aggregate" then
      let r : Res AggShare := do
        let a ← V.aggInit aggParam
        forFold reports a fun a rep => do
          let o ← decOut aggParam (((A (J rep "out_shares")).map HB).getD ag [])
          V.aggUpdate aggParam a o
      match r with
      | .ok a => good := okB (encAgg a) (((A (J j "agg_shares")).map HB).getD ag [])
      | .error e => errs := s!"{repr e}" :: errs
    else if name = "unshard" then
      let r : Res AggRes := do
        let as ← mapRes (fun b => decAgg aggParam (HB b)) (A (J j "agg_shares"))
        V.unshard aggParam as reports.length
      match r with
      | .ok a => good := (res a).compress == (J j "agg_result").compress
      | .error e => errs := s!"{repr e}" :: errs
    else errs := s!"unknown op {name}" :: errs
    if !good then
      errs := s!"{name} report {ri} round {rnd} agg {ag}" :: errs
  -- the whole run
  if (A (J j "operations")).any (fun o => (J o "operation").getStr?.toOption == some "unshard") then
    let ms := reports.map fun r => (parse (J r "measurement"), S r "nonce", S r "rand")
    match runVdaf V key aggParam ctx ms with
    | .ok a => if (res a).compress != (J j "agg_result").compress then errs := "run_vdaf" :: errs
    | .error e => errs := s!"run_vdaf {repr e}" :: errs
  return errs.reverse
end

def pInt (j : Json) : Int := match j with | .bool b => if b then 1 else 0 | _ => j.getInt?.toOption.getD 0
def pInts (j : Json) : List Int := (A j).map pInt
def pBools (j : Json) : List Bool := (A j).map fun b => b == .bool true

def prio3 {X : Xof} {F : Type} [NttField F] {M G : Type} (r : Res (Prio3 X F M G)) (parse : Json → M) (res : G → Json)
    (j : Json) : List String :=
  match r with
  | .ok P => checkVdaf P.vdaf Prio3.encodeOutShare Prio3.decodeOutShare Prio3.encodeAggShare Prio3.decodeAggShare parse res j
  | .error e => [s!"{repr e}"]

/-- `name` is the name of a file in test_vec/vdaf and `j` its contents. -/
def checkFile (name : String) (j : Json) : List String :=
  let sh := N j "shares"
  let n2j (n : Nat) : Json := toJson n
  let l2j (n : List Nat) : Json := toJson n
  if name.startsWith "Prio3Count" then prio3 (Prio3Count pr FUEL sh) pInt n2j j
  else if name.startsWith "Prio3SumVecWithMultiproof" then
    prio3 (Prio3SumVecWithMultiproof pr FUEL sh Field64 3 (N j "length") (N j "max_measurement") (N j "chunk_length")) pInts l2j j
  else if name.startsWith "Prio3SumVec" then
    prio3 (Prio3SumVec pr FUEL sh (N j "length") (N j "max_measurement") (N j "chunk_length")) pInts l2j j
  else if name.startsWith "Prio3Sum" then
    prio3 (Prio3Sum pr FUEL sh (N j "max_measurement")) pInt n2j j
  else if name.startsWith "Prio3Histogram" then
    prio3 (Prio3Histogram pr FUEL sh (N j "length") (N j "chunk_length")) pInt l2j j
  else if name.startsWith "Prio3Multihot" then
    prio3 (Prio3MultihotCountVec pr FUEL sh (N j "length") (N j "max_weight") (N j "chunk_length")) pBools l2j j
  else if name.startsWith "Prio3HigherDegree" then
    prio3 (Prio3HigherDegree pr FUEL sh) pInt n2j j
  else if name.startsWith "Poplar1" then
    match Poplar1.init (N j "bits") with
    | .ok P => checkVdaf (P.vdaf pr FUEL) Poplar1.encodeOutShare P.decodeOutShare Poplar1.encodeAggShare P.decodeAggShare pBools l2j j
    | .error e => [s!"{repr e}"]
  else ["unknown file"]

/-- The XOF vectors -/
def checkXof (X : Xof) (j : Json) : Bool :=
  okB (X.deriveSeed (S j "seed") (S j "dst") (S j "binder")) (S j "derived_seed") &&
  okB (do
    let v ← X.expandIntoVec Field128 (S j "seed") (S j "dst") (S j "binder") (N j "length")
    encodeVec v) (S j "expanded_vec_field128")

def pNat (j : Json) : Nat := (j.getStr?.toOption.getD "0").toNat!

/-- The IDPF vectors -/
def checkIdpf (j : Json) : Bool :=
  let keys := (A (J j "keys")).map HB
  let r : Res Bool := do
    let bi ← mapRes (fun l => mapRes (fun x => ofInt Field64 (pNat x)) (A l)) (A (J j "beta_inner"))
    let bl ← mapRes (fun x => ofInt Field255 (pNat x)) (A (J j "beta_leaf"))
    let I ← Idpf.init 2 (N j "bits")
    let (pub, ks) ← I.gen pr FUEL (pBools (J j "alpha")) bi bl (S j "ctx") (S j "nonce") keys.flatten
    let e ← Idpf.encodePublicShare pub
    let d ← I.decodePublicShare (S j "public_share")
    return ks == keys && e == S j "public_share" && decide (d = pub)
  r matches .ok true

def parse (s : String) : Json := (Json.parse s).toOption.getD .null

/-! ### The smaller vectors, replayed when this module is built -/

#guard checkXof (XofTurboShake128 pr FUEL) <| parse "{\"binder\": \"62696e64657220737472696e67\", \"derived_seed\": \"b62ef0a2778190792d4d42d8c167ba2\
  0e0c37a3f319ba79645829c427d70eea5\", \"dst\": \"646f6d61696e2073657061726174696f6e20746167\", \"\
  expanded_vec_field128\": \"b62ef0a2778190792d4d42d8c167ba20e0c37a3f319ba79645829c427d70eea56d92f\
  ef65a07b17a0438e25452cdc7f15f63caf0e8a2a3c72ac69524729e64e03c7ec3a3afa7eb21cb6da6abf0a3b73630a91\
  a5fa05dcbd33da3476f1c8bf4fd66fe5a80dd04bc95f0f02cb8fc9035b9e16e3a5c373bf81c820af513e0c832ca672c6\
  6dcc3b302fb8b27a48f09e0a843f5caf87b3c6c1c4b6765b5923e1d152c2e695601abbc69dbe810860fb30e871a25498\
  61110672335ce50ee632264cbb21f62595298d1d1ad9303b84664801e52112989dfce93f0f9dc833ee0f4a0672ffe47c\
  b0a13f80f9e9b7a2e267db7f7890ccd064bf2458cd4e27162d13e60dbc1b6cae71635a3e603f2c15d1c64a12d4e8235f\
  7bf0a8efe6bb15f3e2adae06f7dd1c4d63ac6cecae731250f73c063c6e59aef630a7b6f4bc64bddadc8b8a479bfdb64e\
  a31e6ab44540a52a8d3399d64a060d50190d66cac1335d739e5f8d508201058a2e0cc1ed90e23cfdc7a253f24710ef3b\
  1604688606386dcc4c90e8476be9daac3271ac51301868df71a719a5f32184145d70fec31b4693d527f53875a2ea0135\
  23d3daa33bc49c22f66c9ae70dd7f06f227f50515ea9ab1fbe0162cf761e596d8999809cf672cd2d82b22231f841c36e\
  494d7e44f7c6f07e29758b1b73ce95b202325116f04067a54aa767eab2e00ce55b3abcd5c3d5b05040a6bf5d4ba8a612\
  67004bb82b12d43b08fed8f9aced3e833a58fc01004526631b0f4192d8754a397e1096511ee23761a29fcd6511ad2e50\
  20683ca877e4075fe6bc5907f7df1ed4b6c97e0f897d781e850da0cf584842c124cdb6011fe8660e3b8c354cd6599853\
  32ea158ffcba83253d39803fa7efb9fcd02cea38089f239f68404814973\", \"length\": 40, \"seed\": \"00010\
  2030405060708090a0b0c0d0e0f101112131415161718191a1b1c1d1e1f\"}"

#guard checkXof (XofFixedKeyAes128 pr FUEL) <| parse "{\"binder\": \"62696e64657220737472696e67\", \"derived_seed\": \"ca97b6736483188fbf6d52a9063ab3e\
  2\", \"dst\": \"646f6d61696e2073657061726174696f6e20746167\", \"expanded_vec_field128\": \"ca97b\
  6736483188fbf6d52a9063ab3e2cd3d2a390443defd69ef29b85a905d166f01b109411930cb0379474684ec70fa412fd\
  b6e05686eeb4351b5970cfcc497ecea23f53c257fe0b5909ca8502ab3dc701c10343fc1ba7fad7691272f741ab025809\
  7d957ae571114e8059f5cfb901c75107e6394c2920f34a52548770d9b6253f22790b66e3a0a4229f332007276723755c\
  5e3111549bba1d7586fd274feadf7e4aca60357db9b12ccb6d56265a20265c13167135d56d56c97bc344cf6f2634c614\
  e63c490e0761739dcfb9075e99aea74c52bacd200944e882ec3f90e7c41e0c3098151afd2b94f9d31ca0e53a080a2493\
  3cadae8a28afad638e78bd24e1502b5cc68fb3b01f6a9877c70cbebcc6051e5d1e534f751dda147584740ba1d5de08b5\
  b32a8d77b50887715c0bcf7547be0943a9cfffe6020ce01d752a49493a9be34903dc3a296b267a896b9f3ea1fa00241c\
  334e7627d1f3bbc83164875aa7c3459cd1eac02573835e30538124a1e34b6ae4782c8df2cf1f2c82ccd5325d91919773\
  b148280d64c8823d7bf4866c1a46b5cc709fa74059c4af4aec7c5d16eaedc13405c54a94834f8ad4475b6478ebf3572f\
  c74201e7e4d51e978b7ddc3db1ded8852f3383259b3f8ea982288c0bd34b7f8b4b8a2f6ab599caf49d6648bf294eb7d5\
  cafd2c5e201da5bd13a344cfb0d8fdf03b986ceaaeb80a05d50dd639aaa66a2d3bb7874033062620c96df2608900eed0\
  14ee00019cce9b3f54bd0217502c18777508957e8b052875ec0b96502123ca5925099be25c58ce70b712ac00baac0805\
  2db362b955ffb1467b73711eabbd3ddf00518d19c8081583613f09523d5a5144ac0aeefe78e5cac16d3fcabfd370029c\
  76f471fffad24fe384c23dd315a\", \"length\": 40, \"seed\": \"000102030405060708090a0b0c0d0e0f\"}"

#guard checkIdpf <| parse "{\"alpha\": [false, false, false, false, false, false, false, false, false, false], \"beta_inner\
  \": [[\"0\", \"0\"], [\"1\", \"1\"], [\"2\", \"2\"], [\"3\", \"3\"], [\"4\", \"4\"], [\"5\", \"5\
  \"], [\"6\", \"6\"], [\"7\", \"7\"], [\"8\", \"8\"]], \"beta_leaf\": [\"9\", \"9\"], \"bits\": 1\
  0, \"ctx\": \"736f6d65206170706c69636174696f6e\", \"keys\": [\"000102030405060708090a0b0c0d0e0f\"\
  , \"101112131415161718191a1b1c1d1e1f\"], \"nonce\": \"000102030405060708090a0b0c0d0e0f\", \"publ\
  ic_share\": \"a46f02b06f4c717daf32b81803262fed7e32eb768e1eefc87ef8a018301cf942e303763cf5aaf2d106\
  17128013c8c4bd061f08b61659a4cc5d3fc4f5d4880e67130b20708c0a7f6fc726f6c0bfd61fa19f0fcebc85023a15fd\
  4b043a8d901c3d7d725db4b1e60811b368fcefe98648c3fa03723ce7a0cda940a825b8b07b70fe0936e05af41f62c4bd\
  28032cb000a66396e65eba54c14ac62fcf0cd119d9e581c77e03a9aa9e0a5d0ef6b26b63753486d0f3ae6fd4af1273a9\
  1a1d7d7b6b41c644e43e35afb09323af8f283096a5889d8ce77eaa976773cb64b7a31a2ca373f1d7a26a792c1acd2276\
  a0f85891d83efdde34d6dff80cad2e80fa5958058cf67a225770c640eb211ff7514ac3153c2f7ed36ff770f2521228ec\
  fb2f4a233558c41689abc5eee8cadf2139d7d3642e7369a349d30857188a816cd1a55db6347a252b95e95ca9cc2645e4\
  514c446e1da91a287e4b964f4d2c0d51178c6b4010b78816a42c8ff984fc5604cf962b02d5a6c7c93b21\"}"

#guard checkFile "Prio3Count_0.json" (parse "{\"agg_param\": \"\", \"agg_result\": 1, \"agg_shares\": [\"355e16daa732744c\", \"cda1e92557cd8b\
  b3\"], \"ctx\": \"736f6d65206170706c69636174696f6e\", \"operations\": [{\"operation\": \"shard\"\
  , \"report_index\": 0, \"success\": true}, {\"aggregator_id\": 0, \"operation\": \"verify_init\"\
  , \"report_index\": 0, \"success\": true}, {\"aggregator_id\": 1, \"operation\": \"verify_init\"\
  , \"report_index\": 0, \"success\": true}, {\"operation\": \"verifier_shares_to_message\", \"rep\
  ort_index\": 0, \"round\": 0, \"success\": true}, {\"aggregator_id\": 0, \"operation\": \"verify\
  _next\", \"report_index\": 0, \"round\": 1, \"success\": true}, {\"aggregator_id\": 1, \"operati\
  on\": \"verify_next\", \"report_index\": 0, \"round\": 1, \"success\": true}, {\"aggregator_id\"\
  : 0, \"operation\": \"aggregate\", \"success\": true}, {\"aggregator_id\": 1, \"operation\": \"a\
  ggregate\", \"success\": true}, {\"operation\": \"unshard\", \"success\": true}], \"reports\": [\
  {\"input_shares\": [\"355e16daa732744c34dc71fa4c85d209f9af2ecf751609386ed9e2714ecc9e6bb2277498ac\
  41e75c01d81b4cb8485926\", \"000102030405060708090a0b0c0d0e0f101112131415161718191a1b1c1d1e1f\"], \
  \"measurement\": 1, \"nonce\": \"000102030405060708090a0b0c0d0e0f\", \"out_shares\": [\"355e16da\
  a732744c\", \"cda1e92557cd8bb3\"], \"public_share\": \"\", \"rand\": \"000102030405060708090a0b0\
  c0d0e0f101112131415161718191a1b1c1d1e1f202122232425262728292a2b2c2d2e2f303132333435363738393a3b3\
  c3d3e3f\", \"verifier_messages\": [\"\"], \"verifier_shares\": [[\"cd7905720f16e5d9ef7657a336307\
  ae8f3fe96d36cc09019257268349e7a7d72\", \"3486fa8defe91a26a2eb81c1638c36bcf227593ab1b0e78b0d2775a\
  9788ca884\"]]}], \"shares\": 2, \"verify_key\": \"000102030405060708090a0b0c0d0e0f10111213141516\
  1718191a1b1c1d1e1f\"}") = []

#guard checkFile "Prio3Count_bad_gadget_poly.json" (parse "{\"agg_param\": \"\", \"agg_result\": null, \"agg_shares\": [], \"ctx\": \"736f6d65206170706c696\
  36174696f6e\", \"operations\": [{\"aggregator_id\": 0, \"operation\": \"verify_init\", \"report_\
  index\": 0, \"success\": true}, {\"aggregator_id\": 1, \"operation\": \"verify_init\", \"report_\
  index\": 0, \"success\": true}, {\"operation\": \"verifier_shares_to_message\", \"report_index\"\
  : 0, \"round\": 0, \"success\": false}], \"reports\": [{\"input_shares\": [\"355e16daa732744c34d\
  c71fa4c85d209f9af2ecf751609386ed9e2714ecc9e6bb2277498ac41e75c02d81b4cb8485926\", \"0001020304050\
  60708090a0b0c0d0e0f101112131415161718191a1b1c1d1e1f\"], \"measurement\": null, \"nonce\": \"0001\
  02030405060708090a0b0c0d0e0f\", \"out_shares\": [], \"public_share\": \"\", \"rand\": \"00010203\
  0405060708090a0b0c0d0e0f101112131415161718191a1b1c1d1e1f202122232425262728292a2b2c2d2e2f30313233\
  3435363738393a3b3c3d3e3f\", \"verifier_messages\": [], \"verifier_shares\": [[\"ce7905720f16e5d9\
  ef7657a336307ae8f3fe96d36cc0901989ae428528ddf2c2\", \"3486fa8defe91a26a2eb81c1638c36bcf227593ab1\
  b0e78b0d2775a9788ca884\"]]}], \"shares\": 2, \"verify_key\": \"000102030405060708090a0b0c0d0e0f1\
  01112131415161718191a1b1c1d1e1f\"}") = []

#guard checkFile "Prio3HigherDegree_0.json" (parse "{\"agg_param\": \"\", \"agg_result\": 2, \"agg_shares\": [\"d8e24b90f4a12de6\", \"2b1db46f0a5ed2\
  19\"], \"ctx\": \"736f6d65206170706c69636174696f6e\", \"operations\": [{\"operation\": \"shard\"\
  , \"report_index\": 0, \"success\": true}, {\"aggregator_id\": 0, \"operation\": \"verify_init\"\
  , \"report_index\": 0, \"success\": true}, {\"aggregator_id\": 1, \"operation\": \"verify_init\"\
  , \"report_index\": 0, \"success\": true}, {\"operation\": \"verifier_shares_to_message\", \"rep\
  ort_index\": 0, \"round\": 0, \"success\": true}, {\"aggregator_id\": 0, \"operation\": \"verify\
  _next\", \"report_index\": 0, \"round\": 1, \"success\": true}, {\"aggregator_id\": 1, \"operati\
  on\": \"verify_next\", \"report_index\": 0, \"round\": 1, \"success\": true}, {\"aggregator_id\"\
  : 0, \"operation\": \"aggregate\", \"success\": true}, {\"aggregator_id\": 1, \"operation\": \"a\
  ggregate\", \"success\": true}, {\"operation\": \"unshard\", \"success\": true}], \"reports\": [\
  {\"input_shares\": [\"d8e24b90f4a12de62092a768f2b5b1b19ca765c3f579cd4b7a87c0fb0a124281d722220f54\
  eed0f8b3cb522d8b6c97f7\", \"000102030405060708090a0b0c0d0e0f101112131415161718191a1b1c1d1e1f\"], \
  \"measurement\": 2, \"nonce\": \"000102030405060708090a0b0c0d0e0f\", \"out_shares\": [\"d8e24b90\
  f4a12de6\", \"2b1db46f0a5ed219\"], \"public_share\": \"\", \"rand\": \"000102030405060708090a0b0\
  c0d0e0f101112131415161718191a1b1c1d1e1f202122232425262728292a2b2c2d2e2f303132333435363738393a3b3\
  c3d3e3f\", \"verifier_messages\": [\"\"], \"verifier_shares\": [[\"d722220f54eed0f8817d16866711e\
  abd3b4cdc70a53f6754\", \"2addddf0aa112f070c8ed9fef8f68c9f341d1fb454b2551e\"]]}], \"shares\": 2, \
  \"verify_key\": \"000102030405060708090a0b0c0d0e0f101112131415161718191a1b1c1d1e1f\"}") = []

#guard checkFile "Prio3Histogram_bad_public_share.json" (parse "{\"agg_param\": \"\", \"agg_result\": null, \"agg_shares\": [], \"chunk_length\": 2, \"ctx\": \"\
  736f6d65206170706c69636174696f6e\", \"length\": 5, \"operations\": [{\"aggregator_id\": 0, \"ope\
  ration\": \"verify_init\", \"report_index\": 0, \"success\": true}, {\"aggregator_id\": 1, \"ope\
  ration\": \"verify_init\", \"report_index\": 0, \"success\": true}, {\"operation\": \"verifier_s\
  hares_to_message\", \"report_index\": 0, \"round\": 0, \"success\": false}], \"reports\": [{\"in\
  put_shares\": [\"0bc33b18788b18bcf18237224441fd12b1b4413faf2a370602f1413a4c66b61739bf42cc98f49a3\
  e0184b1a6c30ecdedbf47eb2c834389c435afe71f5d7e3d44dc206faf81791f5e0713a2e6b7871682c31ff8ceb49d12b\
  8725242e3ba03df8c83960dbbc545b556d9019e198b028f96e1ecab09b3f32995f1a77c63335af43584a9997fc045cac\
  fc36314da79c0a9f62def334c7f96a411ac6fd7e371e8a12204f1d5fc39099668c05163af0920df13c5037c7ff445c42\
  6ca35ed34904b335bdee38b9cbf06b75b7ea6fd4eb53dd89ecec8c468354b53db7d539c3e68d0077be8cab0be8e919a8\
  2ec87649845dd584124ea5e3b4d3ce268621b4d1e9012f39c404142434445464748494a4b4c4d4e4f505152535455565\
  758595a5b5c5d5e5f\", \"000102030405060708090a0b0c0d0e0f101112131415161718191a1b1c1d1e1f202122232\
  425262728292a2b2c2d2e2f303132333435363738393a3b3c3d3e3f\"], \"measurement\": null, \"nonce\": \"\
  000102030405060708090a0b0c0d0e0f\", \"out_shares\": [], \"public_share\": \"0699017bb24c65181d95\
  8448ce8e2c173c91161c41b7326d6da095d8f479eae6c3737e95d95616ea9cb504757a00404a5fee380211a47e5e3643\
  9cc0f900f002\", \"rand\": \"000102030405060708090a0b0c0d0e0f101112131415161718191a1b1c1d1e1f2021\
  22232425262728292a2b2c2d2e2f303132333435363738393a3b3c3d3e3f404142434445464748494a4b4c4d4e4f5051\
  52535455565758595a5b5c5d5e5f606162636465666768696a6b6c6d6e6f707172737475767778797a7b7c7d7e7f\", \
  \"verifier_messages\": [], \"verifier_shares\": [[\"95f58cb93c37a03b87a5655488fff748a72b008764de\
  c4dd1a8987149133ea13729988943dbf1127bece72d0a4a845f73ca64899d9555250bf6832041c060884a45a8b68ccb4\
  d1cd839a228c1695b75e2d2b22e95bb5757243b245c7ac002ed10799017bb24c65181d958448ce8e2c173c91161c41b7\
  326d6da095d8f479eae6\", \"6c0a7346c3c85fc45c5a9aab770008b7f9fdc112738bddd680a89728321d3a41b4e1e4\
  e0e2762540d693dd56469fa19096eaa73be1ed264375b3054df7a84ecebe7aac8058e28b453d3703df1ca61725b3ec4d\
  b86e1f19c224226005677ffcc1c3737e95d95616ea9cb504757a00404a5fee380211a47e5e36439cc0f900f002\"]]}]\
  , \"shares\": 2, \"verify_key\": \"000102030405060708090a0b0c0d0e0f101112131415161718191a1b1c1d1\
  e1f\"}") = []

#guard checkFile "Prio3Histogram_bad_verifier_message.json" (parse "{\"agg_param\": \"\", \"agg_result\": null, \"agg_shares\": [], \"chunk_length\": 2, \"ctx\": \"\
  736f6d65206170706c69636174696f6e\", \"length\": 5, \"operations\": [{\"aggregator_id\": 0, \"ope\
  ration\": \"verify_init\", \"report_index\": 0, \"success\": true}, {\"aggregator_id\": 0, \"ope\
  ration\": \"verify_next\", \"report_index\": 0, \"round\": 1, \"success\": false}], \"reports\": \
  [{\"input_shares\": [\"0bc33b18788b18bcf18237224441fd12b1b4413faf2a370602f1413a4c66b61739bf42cc9\
  8f49a3e0184b1a6c30ecdedbf47eb2c834389c435afe71f5d7e3d44dc206faf81791f5e0713a2e6b7871682c31ff8ceb\
  49d12b8725242e3ba03df8c83960dbbc545b556d9019e198b028f96e1ecab09b3f32995f1a77c63335af43584a9997fc\
  045cacfc36314da79c0a9f62def334c7f96a411ac6fd7e371e8a12204f1d5fc39099668c05163af0920df13c5037c7ff\
  445c426ca35ed34904b335bdee38b9cbf06b75b7ea6fd4eb53dd89ecec8c468354b53db7d539c3e68d0077be8cab0be8\
  e919a82ec87649845dd584124ea5e3b4d3ce268621b4d1e9012f39c404142434445464748494a4b4c4d4e4f505152535\
  455565758595a5b5c5d5e5f\", \"000102030405060708090a0b0c0d0e0f101112131415161718191a1b1c1d1e1f202\
  122232425262728292a2b2c2d2e2f303132333435363738393a3b3c3d3e3f\"], \"measurement\": null, \"nonce\
  \": \"000102030405060708090a0b0c0d0e0f\", \"out_shares\": [], \"public_share\": \"0799017bb24c65\
  181d958448ce8e2c173c91161c41b7326d6da095d8f479eae6c3737e95d95616ea9cb504757a00404a5fee380211a47e\
  5e36439cc0f900f002\", \"rand\": \"000102030405060708090a0b0c0d0e0f101112131415161718191a1b1c1d1e\
  1f202122232425262728292a2b2c2d2e2f303132333435363738393a3b3c3d3e3f404142434445464748494a4b4c4d4e\
  4f505152535455565758595a5b5c5d5e5f606162636465666768696a6b6c6d6e6f707172737475767778797a7b7c7d7e\
  7f\", \"verifier_messages\": [\"0000000000000000000000000000000000000000000000000000000000000000\
  \"], \"verifier_shares\": [[\"95f58cb93c37a03b87a5655488fff748a72b008764dec4dd1a8987149133ea1372\
  9988943dbf1127bece72d0a4a845f73ca64899d9555250bf6832041c060884a45a8b68ccb4d1cd839a228c1695b75e2d\
  2b22e95bb5757243b245c7ac002ed10799017bb24c65181d958448ce8e2c173c91161c41b7326d6da095d8f479eae6\"\
  ]]}], \"shares\": 2, \"verify_key\": \"000102030405060708090a0b0c0d0e0f101112131415161718191a1b1\
  c1d1e1f\"}") = []

#guard checkFile "Poplar1_bad_corr_inner.json" (parse "{\"agg_param\": \"0000000000020080\", \"agg_result\": null, \"agg_shares\": [], \"bits\": 2, \"c\
  tx\": \"736f6d65206170706c69636174696f6e\", \"operations\": [{\"aggregator_id\": 0, \"operation\"\
  : \"verify_init\", \"report_index\": 0, \"success\": true}, {\"aggregator_id\": 1, \"operation\"\
  : \"verify_init\", \"report_index\": 0, \"success\": true}, {\"operation\": \"verifier_shares_to\
  _message\", \"report_index\": 0, \"round\": 0, \"success\": true}, {\"aggregator_id\": 0, \"oper\
  ation\": \"verify_next\", \"report_index\": 0, \"round\": 1, \"success\": true}, {\"aggregator_i\
  d\": 1, \"operation\": \"verify_next\", \"report_index\": 0, \"round\": 1, \"success\": true}, {\
  \"operation\": \"verifier_shares_to_message\", \"report_index\": 0, \"round\": 1, \"success\": f\
  alse}], \"reports\": [{\"input_shares\": [\"000102030405060708090a0b0c0d0e0f20212223242526272829\
  2a2b2c2d2e2f303132333435363738393a3b3c3d3e3f71496e84bd41e392ec7a156aace79865b80ef06ecd9b16fbdeb6\
  ac5abb8d4ee578dea24375f443f12bf66bb2d0d104237a73dadc2e49b48a4d61898fdda9a5394ee5f912c60ede5cb891\
  ac765842e456\", \"101112131415161718191a1b1c1d1e1f404142434445464748494a4b4c4d4e4f50515253545556\
  5758595a5b5c5d5e5ff658abe2178807d4c6d8ce08d7c78ff421db08451eb14d11a5f7d4cd613000eb587a94530d0c38\
  e026d469ed22e78226259e1e80e0bb8d141da3b80a7d0a93417337a13cc11259b8eee8d8e5355b5f20\"], \"measure\
  ment\": null, \"nonce\": \"000102030405060708090a0b0c0d0e0f\", \"out_shares\": [], \"public_shar\
  e\": \"08b06f4c717daf32b81803262fed7e32eba6908b98f7d65b8e8b5a9370bcfdc0a6aaaa9e0a5d0ef6b21ee048f\
  0b9d01c50a7d3b730d0e2936e99edcffeb4cf93b8be091812bf88f771573ff4a28c1ecb239586b870b99c6382261bece\
  20c24c0f2ef681447a24532897fea0096e7ea482a\", \"rand\": \"000102030405060708090a0b0c0d0e0f1011121\
  31415161718191a1b1c1d1e1f202122232425262728292a2b2c2d2e2f303132333435363738393a3b3c3d3e3f4041424\
  34445464748494a4b4c4d4e4f505152535455565758595a5b5c5d5e5f606162636465666768696a6b6c6d6e6f7071727\
  37475767778797a7b7c7d7e7f\", \"verifier_messages\": [\"455ccd392759a528999bacd02d9062b958a42f6b4\
  e71926c\"], \"verifier_shares\": [[\"f001afe7abda8bba33236abf1736ed5e09eb27409a133e07\", \"565a1\
  e527a7e196e66784211165a755a4fb9072bb45d5465\"], [\"7294e21f43bb5f81\", \"d4c7ea19e39d45a7\"]]}], \
  \"shares\": 2, \"verify_key\": \"000102030405060708090a0b0c0d0e0f101112131415161718191a1b1c1d1e1\
  f\"}") = []

#guard checkFile "Poplar1_0.json" (parse "{\"agg_param\": \"0000000000020080\", \"agg_result\": [0, 1], \"agg_shares\": [\"f2addbd58d49752\
  7f0f4a4cc4cafd163\", \"0f52242a71b68ad8120b5b33b2502e9c\"], \"bits\": 4, \"ctx\": \"736f6d652061\
  70706c69636174696f6e\", \"operations\": [{\"operation\": \"shard\", \"report_index\": 0, \"succe\
  ss\": true}, {\"aggregator_id\": 0, \"operation\": \"verify_init\", \"report_index\": 0, \"succe\
  ss\": true}, {\"aggregator_id\": 1, \"operation\": \"verify_init\", \"report_index\": 0, \"succe\
  ss\": true}, {\"operation\": \"verifier_shares_to_message\", \"report_index\": 0, \"round\": 0, \
  \"success\": true}, {\"aggregator_id\": 0, \"operation\": \"verify_next\", \"report_index\": 0, \
  \"round\": 1, \"success\": true}, {\"aggregator_id\": 1, \"operation\": \"verify_next\", \"repor\
  t_index\": 0, \"round\": 1, \"success\": true}, {\"operation\": \"verifier_shares_to_message\", \
  \"report_index\": 0, \"round\": 1, \"success\": true}, {\"aggregator_id\": 0, \"operation\": \"v\
  erify_next\", \"report_index\": 0, \"round\": 2, \"success\": true}, {\"aggregator_id\": 1, \"op\
  eration\": \"verify_next\", \"report_index\": 0, \"round\": 2, \"success\": true}, {\"aggregator\
  _id\": 0, \"operation\": \"aggregate\", \"success\": true}, {\"aggregator_id\": 1, \"operation\"\
  : \"aggregate\", \"success\": true}, {\"operation\": \"unshard\", \"success\": true}], \"reports\
  \": [{\"input_shares\": [\"000102030405060708090a0b0c0d0e0f202122232425262728292a2b2c2d2e2f30313\
  2333435363738393a3b3c3d3e3f44c71022b8189d550d5c0fa5217f286f9be848be781fa11af05edd3007ef93731dc71\
  98bc1019cd67c469220e2575475ac94083fe698ef8a2fe052d594fd50a3e3fe9a85fe2ec8f3c49bc8de2ee6ce3886fe9\
  60eccf2a6a6732c40f6313f00385d5cbf056f9c410c5ada1d66667e9555\", \"101112131415161718191a1b1c1d1e1\
  f404142434445464748494a4b4c4d4e4f505152535455565758595a5b5c5d5e5f21db08451eb14d11a5f7d4cd613000e\
  b587a94530d0c38e026d469ed22e782a6259e1e80e0bb8d141da3b80a7d0a93417337a13cc11259b8eee8d8e5355b5fa\
  0917556ba9ef45fc7b94064daf0e82d39581fd82ede197d36dac9c11e7e300ecc902a3df76498ff6a2c5f37459cd1ad1\
  2\"], \"measurement\": [true, true, false, true], \"nonce\": \"000102030405060708090a0b0c0d0e0f\"\
  , \"out_shares\": [\"f2addbd58d497527f0f4a4cc4cafd163\", \"0f52242a71b68ad8120b5b33b2502e9c\"], \
  \"public_share\": \"6b8e0daf3de07179b572a661918e574da4a8725ac20a9bbb41a80cac2833421dce8cefc31b5e\
  f82eb6541675e5735ae8031ad3350bd0f0ecbd4a78f964ff03f537512a4d0e1ee930e9e9921239025be96ebca9937973\
  04e636a21596d48ef770a505f2a460539c85b7f79c232e4d03fa5e93d4c7c9732a34fa7b36d465f8832d5072adb054be\
  31fa062dd98870f874be473c61f5a3a190305a55447c07e26eeba33a87107fac98d5facef1bddf390e9b0a\", \"rand\
  \": \"000102030405060708090a0b0c0d0e0f101112131415161718191a1b1c1d1e1f202122232425262728292a2b2c\
  2d2e2f303132333435363738393a3b3c3d3e3f404142434445464748494a4b4c4d4e4f505152535455565758595a5b5c\
  5d5e5f606162636465666768696a6b6c6d6e6f707172737475767778797a7b7c7d7e7f\", \"verifier_messages\": \
  [\"f2dc17bf260494895f285adf43d559198a45fb1e53e0ec82\", \"\"], \"verifier_shares\": [[\"ceb46e084\
  fff39bf0f6dc92a3bbea2ef1a19a183864b6cdb\", \"2528a9b6d6045aca51bb90b40717b729712c5a9bcb9480a7\"]\
  , [\"3e2ff87a64bb1320\", \"c3d007859a44ecdf\"]]}], \"shares\": 2, \"verify_key\": \"000102030405\
  060708090a0b0c0d0e0f101112131415161718191a1b1c1d1e1f\"}") = []

/-! The attack of `C90_counterexample`, with TurboSHAKE128: an honest report, and the crafted one. -/

#guard agreementRun pr none id = .ok (1, 1)
#guard agreementRun pr (some [5, 0, 0, 0, 0]) (fun p => p.take 32 ++ List.replicate 32 0) = .ok (2, 1)

end Vdaf.Vectors

open Vdaf Vdaf.Vectors in
/-- Replay all the files. -/
def main (args : List String) : IO Unit := do
  let dir := "/repo/test_vec"
  let file (name : String) := do return parse (← IO.FS.readFile (dir ++ "/" ++ name))
  IO.println s!"XofTurboShake128 {checkXof (XofTurboShake128 pr FUEL) (← file "XofTurboShake128.json")}"
  IO.println s!"XofFixedKeyAes128 {checkXof (XofFixedKeyAes128 pr FUEL) (← file "XofFixedKeyAes128.json")}"
  IO.println s!"IdpfBBCGGI21 {checkIdpf (← file "IdpfBBCGGI21_0.json")}"
  for f in ← System.FilePath.readDir (dir ++ "/vdaf") do
    if args.isEmpty || args.contains f.fileName then
      let errs := checkFile f.fileName (← file ("vdaf/" ++ f.fileName))
      IO.println s!"{f.fileName} {if errs.isEmpty then "pass" else s!"FAIL {errs}"}"
      (← IO.getStdout).flush
