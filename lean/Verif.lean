import Verif.Model.HashDB
import Verif.Model.RocksDB
import Verif.Proof.Heights
import Verif.Proof.History
import Verif.Proof.Backends
import Verif.Proof.Inclusion
import Verif.Props.Utils
import Verif.Props.Versions
import Verif.Props.Calls
import Verif.Props.InclusionProofs
import Verif.Props.Errors
import Verif.Props.Failures
import Verif.Props.Structure
import Verif.Props.Codec
import Verif.Props.Hashers
import Verif.Props.Backends
import Verif.Props.Remove
import Verif.Props.RepoTests
import Verif.Props.Slices
import Verif.Props.Live
import Verif.Props.Lineage
import Verif.Props.Storage
import Verif.Props.Cost
import Verif.Props.Counters
import Verif.Props.Formats
import Verif.Props.Damage
import Verif.Model.Trees
import Verif.Props.Trees
import Verif.Props.Durability
import Verif.Props.Trace
import Verif.Props.Machine
import Verif.Props.Session
import Verif.Props.TidySession
import Verif.Props.Touched
import Verif.Props.Binding
import Verif.Props.Exact
import Verif.Props.Effect
import Verif.Props.Counts
import Verif.Props.Needs
import Verif.Props.Twins
import Verif.Props.AnySession
import Verif.Props.Parts
import Verif.Props.Reached
import Verif.Props.Refused
import Verif.Props.Leftover
import Verif.Props.Follow
import Verif.Props.FollowNew
import Verif.Props.Sparse
import Verif.Props.Reference
import Verif.Props.AnyRoot
import Verif.Props.Anywhere
import Verif.Props.AnywhereAgain
import Verif.Props.Complete
import Verif.Props.AllOrNothing
import Verif.Props.Undamaged
