import Verif.Props.Zipper
import Verif.Props.Focus
import Verif.Props.Meta
import Verif.Props.Fold
import Verif.Props.Canon
import Verif.Props.NoPanic
import Verif.Props.Stack
import Verif.Props.Tree
import Verif.Props.Skiplist
import Verif.Props.Trie
import Verif.Props.SeqApi
import Verif.Props.Eval
import Verif.Props.Programs
import Verif.Props.Adder
import Verif.Props.HeapStack
import Verif.Props.Heap
import Verif.Props.Incr
import Verif.Props.IncrAgain
import Verif.Props.IncrMap
import Verif.Props.IncrMemoFrom
import Verif.Props.IncrMemoCost
import Verif.Props.IncrFold
import Verif.Props.IncrLr
import Verif.Props.HeapSession
import Verif.Props.HeapMap
import Verif.Props.HeapMemoFrom
import Verif.Props.Session
import Verif.Props.HeapNs
import Verif.Props.HeapClient
import Verif.Props.Hash
import Verif.Props.LevelDist
import Verif.Props.EditCost
import Verif.Props.EditAgain
import Verif.Props.HarnessCost
import Verif.Props.ListCost
import Verif.Props.EditAny
import Verif.Props.MeanWork
import Verif.Props.HeapBuild
import Verif.Props.HeapList
import Verif.Props.MeanHarness
import Verif.Props.MeanDepth
import Verif.Props.MeanAny
import Verif.Props.Moves
import Verif.Props.SkipCost
import Verif.Props.IncrObs
import Verif.Props.IncrWork
import Verif.Props.UniqueWork
import Verif.Props.UniqueMean
import Verif.Props.UniqueSession
import Verif.Props.MeanUnique
import Verif.Props.MeanDriver
import Verif.Props.OpenWork
import Verif.Props.OpenBatches
import Verif.Props.MeanTokens
import Verif.Props.Generators
import Verif.Props.Entry
import Verif.Props.Actions
import Verif.Props.Report
import Verif.Props.SessionWork
import Verif.Props.SessionLikely
import Verif.Props.SessionTail
import Verif.Props.EvalStack
import Verif.Props.LikelyWork
import Verif.Props.LikelyAny
import Verif.Props.DepthRange
import Verif.Props.TokensTail
import Verif.Spec.LikelyDeep
import Verif.Props.LikelyTokens
import Verif.Props.Ends
import Verif.Props.IterLeft
