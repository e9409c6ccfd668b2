import Verif.Spec.PingPong

/-! # Specification vocabulary for the agreement of the Leader and the Helper -/

namespace Vdaf.Spec
variable {VState VShare OutShare : Type}

/-- A party in this state has accepted the report: it holds its output share. -/
def Accepted : PingPongState VState VShare OutShare → Prop
  | .finished _ => True
  | .finishedWithOutbound _ _ => True
  | _ => False

end Vdaf.Spec
