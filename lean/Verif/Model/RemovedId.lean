import Verif.Model.Tree

namespace BwTree
namespace Tree

variable {K V : Type}

/-- The NodeID a remove record recycles (8249, 8318). -/
def Node.removedId : Node K V → Option NodeId
  | .leaf (.remove id _) => some id
  | .inner (.remove id _) => some id
  | _ => none

end Tree
end BwTree
