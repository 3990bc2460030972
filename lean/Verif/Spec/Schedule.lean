import Verif.Spec.JoinTree

/-!
# Specification vocabulary: the messages of a clique tree

Independent of `pull_messages` and `push_messages`: which message is sent after which.
-/

namespace Primo
namespace Forest

/-- messages towards the clique `p`, from the leaves: `(sender, receiver)` -/
def collect : Name → Forest → List (Name × Name)
  | _, nil => []
  | p, cons nm _ _ kids rest => kids.collect nm ++ (nm, p) :: rest.collect p

/-- messages away from the clique `p` -/
def distribute : Name → Forest → List (Name × Name)
  | _, nil => []
  | p, cons nm _ _ kids rest => (p, nm) :: (kids.distribute nm ++ rest.distribute p)

end Forest

/-- A complete and orderly exchange of messages between the cliques that the first one reaches: over each edge one message
in each direction, nothing else, and none before its sender has heard from all other neighbours. -/
structure JTree.Exchange (t : JTree) (msgs : List (Name × Name)) : Prop where
  once : msgs.Nodup
  all : ∀ a b, (a, b) ∈ msgs ↔ t.Reached a ∧ t.Joined a b
  informed : ∀ pre a b post, msgs = pre ++ (a, b) :: post → ∀ c, t.Joined c a → c ≠ b → (c, a) ∈ pre

end Primo
