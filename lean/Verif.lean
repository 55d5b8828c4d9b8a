import Verif.Basic
import Verif.Prober
import Verif.Layout
import Verif.Table
import Verif.ListAux
import Verif.TableInv
import Verif.TableOps
import Verif.TableRehash
import Verif.TableStep
import Verif.Iter
import Verif.Spec
import Verif.History
import Verif.Account
import Verif.Run
import Verif.Api
import Verif.Demo
import Verif.Capacity
import Verif.Props15
import Verif.Props15b
import Verif.Ctor
import Verif.Props16
import Verif.HashTables
import Verif.Simd
import Verif.PropsBasic
import Verif.Bits
import Verif.PropsBits
import Verif.Hakmem
import Verif.Copy
import Verif.Alloc
import Verif.Churn
import Verif.Props16b
import Verif.Range16
import Verif.Robin
import Verif.RobinInv
import Verif.RobinPlace
import Verif.RobinFits
import Verif.RobinOps
import Verif.RobinRun
import Verif.RobinChk
import Verif.RobinProps
import Verif.RobinCopy
import Verif.RobinBugs
import Verif.HashFn
import Verif.HashProps
import Verif.StrView
import Verif.StrProps
import Verif.Digits
import Verif.Flat
import Verif.FlatInv
import Verif.FlatOps
import Verif.FlatStep
import Verif.FlatRun
import Verif.FlatWeak
import Verif.FlatProps
import Verif.FlatBugs
import Verif.FlatGroup
import Verif.Rob16
import Verif.Rob16Inv
import Verif.Rob16Place
import Verif.Rob16Ops
import Verif.Rob16Erase
import Verif.Rob16Run
import Verif.Rob16Props
import Verif.Rob16Limit
import Verif.Rob16More
import Verif.Rob16Bugs
import Verif.Rob16Group
import Verif.Random
import Verif.RandomProps
import Verif.RandomRange
import Verif.RandomWords
import Verif.RobInd
import Verif.RobIndInv
import Verif.RobIndPlace
import Verif.RobIndErase
import Verif.RobIndOps
import Verif.RobIndRun
import Verif.RobIndChk
import Verif.RobIndProps
import Verif.RobIndCopy
import Verif.RobIndBugs
import Verif.SelfRef
import Verif.SelfRefFlat
import Verif.RandomRef
import Verif.RobinGroup
import Verif.RobinLoad
import Verif.RobIndLoad
import Verif.SelfRefRobin
import Verif.SelfRefRobInd
import Verif.SelfRefRob16
import Verif.RobinRange
import Verif.RobIndRange
import Verif.EqualRange
import Verif.FlatIter
import Verif.Lifetime
import Verif.Sha1
import Verif.RobinLife
import Verif.RobinThrow
import Verif.FlatLife
import Verif.Rob16Track
import Verif.Rob16Life
import Verif.CopyLife
import Verif.Float32
import Verif.LoadFactor
import Verif.LoadRun
import Verif.Reserve
import Verif.ReserveFlat
import Verif.ReserveRob16
import Verif.Formatter
import Verif.Owners
import Verif.FlatCopyLife
import Verif.GroupOwners
import Verif.Rob16Owners
import Verif.RobIndLife
import Verif.AllocProp
import Verif.FnCopy
import Verif.MoveThrow
import Verif.FlatMoveThrow
import Verif.Rob16MoveThrow
import Verif.RobinMoveThrow
import Verif.HashMore
import Verif.HashFnv
import Verif.HashAlign
import Verif.VecLanes
import Verif.FloatGen
import Verif.RandomFloat
import Verif.AllocRob16
import Verif.Args
import Verif.RandomCopy
import Verif.StrBuf
import Verif.Stream
import Verif.Buckets
import Verif.ViewArray
import Verif.Ranges
import Verif.FloatNear
import Verif.Rob16Long
import Verif.Align
import Verif.Watch
import Verif.CharCopy
import Verif.RandMax
import Verif.MoveAllocThrow
import Verif.Step
import Verif.StrFn
import Verif.HashHelper
import Verif.Analyzer
import Verif.SysTime
