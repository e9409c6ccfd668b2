import Verif.Model.TypeParams

/-!
# Specification for C94
-/

namespace Vdaf

section
variable {α : Type}

/-- What `test_vec_set_type_param` promises about the keys: it returns the keys that it set, and it leaves all other entries
alone, among them those which every test vector has. -/
def Spec.SetsKeys (set : Doc α → Doc α × List String) : Prop :=
  ∀ doc : Doc α, (∀ k ∈ (set doc).2, ∃ n, (set doc).1.lookup k = some (.inl n)) ∧
    (∀ k, k ∉ (set doc).2 → (set doc).1.lookup k = doc.lookup k) ∧
    ∀ k ∈ ["operations", "shares", "verify_key", "agg_param", "ctx", "reports", "agg_shares", "agg_result"],
      (set doc).1.lookup k = doc.lookup k

end
end Vdaf
