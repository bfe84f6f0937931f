import Verif.Props.Array
import Verif.Props.HashColl
import Verif.Props.ArrayAlgo
import Verif.Props.Iter
import Verif.Props.Int
import Verif.Props.Float
import Verif.Props.Hash
import Verif.Props.Budget
import Verif.Props.BitSet
import Verif.Props.LinkedList
import Verif.Props.Graph
import Verif.Props.Dominance
import Verif.Props.Effects
import Verif.Props.Session
import Verif.Props.Exec
import Verif.Props.Source
import Verif.Props.Names
import Verif.Props.SpecTable
import Verif.Props.StackRegion
import Verif.Props.Resolve
import Verif.Props.Default
import Verif.Props.Import
import Verif.Props.Cleanup
import Verif.Props.Verify
import Verif.Props.TypeText
import Verif.Props.ValueSem
import Verif.Props.Mutability
import Verif.Props.Dce
import Verif.Props.Intern
import Verif.Props.TypeRewrite
import Verif.Props.TypeSnapshot
import Verif.Props.TypeSummary
import Verif.Props.Licm
import Verif.Props.Inline
import Verif.Props.DeadEvidence
import Verif.Props.Lint
import Verif.Props.Specialize
import Verif.Props.StdCache
import Verif.Props.AliasName
import Verif.Props.Checkpoint
import Verif.Props.Collector
import Verif.Props.Uninhabited
import Verif.Props.TypeComplete
import Verif.Props.TypeCycle
import Verif.Props.TypeInfer
import Verif.Proofs.MirRen
import Verif.Props.DeadStore
import Verif.Props.Edit
import Verif.Props.Peephole
import Verif.Props.BranchForward
import Verif.Props.Negation
import Verif.Props.TailMerge
import Verif.Props.WillReturn
import Verif.Props.Unify
import Verif.Props.Borrow
import Verif.Props.Text
import Verif.Props.DataText
import Verif.Props.Relations
import Verif.Props.Destructure
import Verif.Props.Closure
import Verif.Props.Cse
import Verif.Props.Deps
import Verif.Props.Format
import Verif.Props.DataLayout
import Verif.Props.Slice
import Verif.Props.Coherence
import Verif.Props.Match
import Verif.Props.VariantMatch
import Verif.Props.Serde
import Verif.Props.EffectInfer
