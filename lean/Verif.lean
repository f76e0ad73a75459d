import Verif.Common
import Verif.CStr
import Verif.CInt
import Verif.Base64.Props
import Verif.UrlCodec.Props
import Verif.MathOps.Props
import Verif.JString.Props
import Verif.Bits.Props
import Verif.NumText.Props
import Verif.NumText.LongProps
import Verif.BitSet.Props
import Verif.Arrays.Props
import Verif.ArrayList.Props
import Verif.Vector.Props
import Verif.Stack.Props
import Verif.LinkedList.Props
import Verif.PriorityQueue.Props
import Verif.HashMap.Props
import Verif.Character.Props
import Verif.StringBuilder.Props
import Verif.StringBuilder.SearchProps
import Verif.StringBuffer.Props
import Verif.StringBuffer.SearchProps
import Verif.Random.Model
import Verif.Random.Spec
import Verif.Random.Period
import Verif.Random.Lemmas
import Verif.Random.Props
import Verif.Random.Sim
import Verif.Random.BoundProps
import Verif.Random.Conc
import Verif.Random.ConcProps
import Verif.Semaphore.Model
import Verif.Semaphore.Spec
import Verif.Semaphore.Lemmas
import Verif.Semaphore.Props
import Verif.Uuid.Model
import Verif.Uuid.Spec
import Verif.Uuid.Lemmas
import Verif.Uuid.Props
import Verif.LibUuid.Model
import Verif.LibUuid.Spec
import Verif.LibUuid.Lemmas
import Verif.LibUuid.Props
import Verif.Hash
import Verif.Md5.Model
import Verif.Md5.Spec
import Verif.Md5.Lemmas
import Verif.Md5.Props
import Verif.Sha1.Model
import Verif.Sha1.Spec
import Verif.Sha1.Lemmas
import Verif.Sha1.Props
import Verif.Digest.Model
import Verif.Digest.Spec
import Verif.Digest.Lemmas
import Verif.Digest.Copy
import Verif.Digest.Props
import Verif.MediaType.Model
import Verif.MediaType.Spec
import Verif.MediaType.Lemmas
import Verif.MediaType.Props
import Verif.Wrappers.Model
import Verif.Wrappers.Spec
import Verif.Wrappers.Lemmas
import Verif.Wrappers.Props
import Verif.ConcMap.Model
import Verif.ConcMap.Spec
import Verif.ConcMap.Props
import Verif.Date.Calendar
import Verif.Date.CalSpec
import Verif.Date.CalLemmas
import Verif.Date.Model
import Verif.Date.Spec
import Verif.Date.Lemmas
import Verif.Date.Steps
import Verif.Date.Props
import Verif.Date.ParseLemmas
import Verif.Date.Texts
import Verif.Date.TextProps
import Verif.Date.TotalProps
import Verif.Date.SlashProps
import Verif.Cuckoo.Model
import Verif.Cuckoo.Spec
import Verif.Cuckoo.Lemmas
import Verif.Cuckoo.Migrate
import Verif.Cuckoo.Sections
import Verif.Cuckoo.Sim
import Verif.Cuckoo.Whole
import Verif.Cuckoo.Full
import Verif.Cuckoo.Live
import Verif.Cuckoo.Props
import Verif.Cuckoo.Locks
import Verif.Cuckoo.LockProps
import Verif.Thread.Model
import Verif.Thread.Spec
import Verif.Thread.Lemmas
import Verif.Thread.Count
import Verif.Thread.Again
import Verif.Thread.Keep
import Verif.Thread.Destroy
import Verif.Thread.Props
import Verif.LinkedQueue.Model
import Verif.LinkedQueue.Tickets
import Verif.LinkedQueue.Moves
import Verif.LinkedQueue.Own
import Verif.LinkedQueue.Inv
import Verif.LinkedQueue.Frame
import Verif.LinkedQueue.Index
import Verif.LinkedQueue.Blocks
import Verif.LinkedQueue.Safe
import Verif.LinkedQueue.Log
import Verif.LinkedQueue.Run
import Verif.LinkedQueue.Spec
import Verif.LinkedQueue.Count
import Verif.LinkedQueue.Lone
import Verif.LinkedQueue.Cost
import Verif.LinkedQueue.Seq
import Verif.LinkedQueue.Wit
import Verif.LinkedQueue.Props
import Verif.LinkedQueue.EndProps
import Verif.Floats.Model
import Verif.Floats.Lemmas
import Verif.Floats.Bits
import Verif.Floats.Spec
import Verif.Floats.Ieee
import Verif.Floats.Order
import Verif.Floats.BitsProps
import Verif.Floats.Props
import Verif.FloatText.Model
import Verif.FloatText.Spec
import Verif.FloatText.Lemmas
import Verif.FloatText.Nearest
import Verif.FloatText.Round
import Verif.FloatText.Short
import Verif.FloatText.Survive
import Verif.FloatText.Props
import Verif.LightSema.Model
import Verif.LightSema.Spec
import Verif.LightSema.Lemmas
import Verif.LightSema.Props
import Verif.BlockQueue.Model
import Verif.BlockQueue.Spec
import Verif.BlockQueue.Lemmas
import Verif.BlockQueue.Props
import Verif.FreeList.Model
import Verif.FreeList.Spec
import Verif.FreeList.Lemmas
import Verif.FreeList.Props
import Verif.FreeList.Progress
import Verif.FreeList.ProgressProps
import Verif.ProdHash.Model
import Verif.ProdHash.Spec
import Verif.ProdHash.Lemmas
import Verif.ProdHash.Props
import Verif.Kernel.Model
import Verif.Kernel.Spec
import Verif.Kernel.Lemmas
import Verif.Kernel.Props
import Verif.Net.Model
import Verif.Net.Props
import Verif.DateFormat.Model
import Verif.DateFormat.Props
import Verif.TokenQueue.Model
import Verif.TokenQueue.Spec
import Verif.TokenQueue.Tickets
import Verif.TokenQueue.Ring
import Verif.TokenQueue.Inv
import Verif.TokenQueue.ProdMem
import Verif.TokenQueue.Prod
import Verif.TokenQueue.ProdBulk
import Verif.TokenQueue.Cons
import Verif.TokenQueue.Steps
import Verif.TokenQueue.Lone
import Verif.TokenQueue.Props
import Verif.TokenQueue.EndModel
import Verif.TokenQueue.EndWin
import Verif.TokenQueue.EndLemmas
import Verif.TokenQueue.EndRing
import Verif.TokenQueue.EndProps
import Verif.Format.Props
import Verif.StringBuffer.SyncModel
import Verif.StringBuffer.SyncSpec
import Verif.StringBuffer.SyncLemmas
import Verif.StringBuffer.SyncInv
import Verif.StringBuffer.SyncHist
import Verif.StringBuffer.SyncProps
import Verif.UuidClock.Model
import Verif.UuidClock.Spec
import Verif.UuidClock.Text
import Verif.UuidClock.Lemmas
import Verif.UuidClock.Inv
import Verif.UuidClock.Props
import Verif.CaseText.Model
import Verif.CaseText.Spec
import Verif.CaseText.Lemmas
import Verif.CaseText.Props
import Verif.Weak.Memory
import Verif.Weak.Model
import Verif.Weak.Spec
import Verif.Weak.MemLemmas
import Verif.Weak.Tickets
import Verif.Weak.Inv
import Verif.Weak.Steps
import Verif.Weak.Lemmas
import Verif.Weak.Lone
import Verif.Weak.Props
import Verif.WeakReuse.Model
import Verif.WeakReuse.Spec
import Verif.WeakReuse.Props
import Verif.Weak.Embed
import Verif.WeakReuse.Rel
import Verif.WeakReuse.Inv
import Verif.WeakReuse.Sim
import Verif.WeakReuse.FreshProps
import Verif.WeakMany.Model
import Verif.WeakMany.Spec
import Verif.WeakMany.Rel
import Verif.WeakMany.Sim
import Verif.WeakMany.Props
import Verif.WeakLock.Props
import Verif.WeakSema.Props
import Verif.RandBytes.Props
import Verif.Remainder.Props
