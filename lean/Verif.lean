import Verif.Lemmas.Rlp
import Verif.Lemmas.Nibble
import Verif.Model.Mpt
import Verif.Lemmas.Trie
import Verif.Lemmas.TrieDelete
import Verif.Lemmas.Refine
import Verif.Lemmas.Update
import Verif.Lemmas.Delete
import Verif.Props.Map
import Verif.Props.Roots
import Verif.Props.Storage
import Verif.Props.Ethereum
import Verif.Props.Paths
import Verif.Props.Codec
import Verif.Props.Proofs
import Verif.Props.Empt
import Verif.Props.EmptObjects
import Verif.Props.EmptErrors
import Verif.Props.Merkle
import Verif.Props.Audit
import Verif.Props.ProofCodec
import Verif.Props.KeyPair
import Verif.Props.Equality
import Verif.Props.Lookups
import Verif.Props.Absence
import Verif.Props.Empties
import Verif.Props.AnyValues
import Verif.Props.Limit
import Verif.Props.Cost
import Verif.Props.Untrusted
import Verif.Props.Partial
import Verif.Props.Decoding
import Verif.Props.Options
import Verif.Props.MerkleTools
import Verif.Props.EmptHistory
import Verif.Props.EmptCrash
import Verif.Props.Stale
import Verif.Props.Tampered
import Verif.Props.Changing
import Verif.Props.Dynamic
import Verif.Props.Threads
import Verif.Props.Crowd
import Verif.Props.Turns
import Verif.Props.Collect
import Verif.Props.Watching
import Verif.Props.EmptWatching
import Verif.Props.EmptCrowd
import Verif.Props.Copies
import Verif.Props.Received
import Verif.Props.Shown
import Verif.Props.Uniform
import Verif.Props.Standard
import Verif.Props.Follow
import Verif.Props.Nearest
import Verif.Props.EmptShared
import Verif.Props.EmptCollect
import Verif.Props.EmptFollow
import Verif.Props.EmptTurns
import Verif.Props.EmptInside
import Verif.Props.Interrupt
import Verif.Props.EmptInterrupt
import Verif.Props.Backend
import Verif.Props.EmptEqual
import Verif.Props.EmptLoops
import Verif.Props.Keys
import Verif.Props.CrowdProofs
import Verif.Props.CrowdCopies
import Verif.Props.EmptCrowdProofs
import Verif.Props.RootForms
import Verif.Props.Merge
import Verif.Props.Objects
import Verif.Props.OnDemand
import Verif.Props.Bytes
import Verif.Props.Depth
import Verif.Props.Sweep
import Verif.Props.Size
import Verif.Props.Past
import Verif.Props.Count
import Verif.Props.Reveal
import Verif.Props.Alike
import Verif.Props.Order
import Verif.Props.EmptAlike
import Verif.Props.MerkleThreads
import Verif.Props.MerkleMade
import Verif.Props.MerklePast
import Verif.Props.MerkleInterrupt
import Verif.Props.MerkleLists
import Verif.Props.OneDict
import Verif.Props.MerkleArgs
import Verif.Props.Timestamps
import Verif.Props.ProofThreads
import Verif.Props.Choosing
import Verif.Props.Scripts
import Verif.Props.Ended
import Verif.Props.KeyFiles
import Verif.Props.Printing
import Verif.Props.Senders
import Verif.Props.PathText
import Verif.Props.EmptPool
import Verif.Props.EmptPoolEnd
import Verif.Props.HashTypes
import Verif.Props.KeyLife
