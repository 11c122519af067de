import Verif.Model.Matching
import Verif.Spec
import Verif.Props.Graph
import Verif.Props.Traversal
import Verif.Props.Components
import Verif.Props.Pairing
import Verif.Props.Matching
import Verif.Props.Optimum
import Verif.Props.Cycles
import Verif.Props.Partial
import Verif.Props.Greedy
import Verif.Props.Rename
import Verif.Props.Levels
import Verif.Props.Parts
import Verif.Props.Lazy
import Verif.Props.Count
import Verif.Props.Loops
import Verif.Props.Outside
import Verif.Props.InTurn
import Verif.Props.Relabel
import Verif.Props.Same
import Verif.Conformance
import Verif.Props.Sharp
import Verif.Props.AnyGraph
import Verif.Props.GreedyExact
import Verif.Props.Unchecked
import Verif.Proofs.Left
import Verif.Props.Left
import Verif.Proofs.Cost
import Verif.Props.Cost
import Verif.Props.Grow
import Verif.Proofs.Touch
import Verif.Props.Touch
import Verif.Proofs.Halt
import Verif.Props.Halt
import Verif.Proofs.Looks
import Verif.Props.Looks
import Verif.Props.Narrow
import Verif.Props.Slim
import Verif.Props.Few
import Verif.Props.Cliques
import Verif.Props.Local
import Verif.Props.Mixed
import Verif.Props.Outcome
import Verif.Props.Perfect
import Verif.Props.Caught
import Verif.Props.AnyComponents
import Verif.Props.AnyGreedy
import Verif.Props.Deep
import Verif.Props.GreedyComplete
