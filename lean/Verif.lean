import Verif.IPow.Props
import Verif.Channel.Iter
import Verif.Channel.Race
import Verif.Channel.LiveModel
import Verif.Channel.LiveLemmas
import Verif.Channel.LiveStep
import Verif.Channel.Lasso
import Verif.Channel.LiveExec
import Verif.Channel.LiveProps
import Verif.Exchange.Props
import Verif.Channel.ThrowProps
import Verif.Channel.Since
import Verif.Channel.SinceProps
import Verif.Exchange.ThrowProps
import Verif.Exchange.SinceProps
import Verif.Exchange.Iter
import Verif.Exchange.Race
import Verif.Guards.Props
import Verif.Guards.RaceProps
import Verif.Guards.Swap
import Verif.Critical.Props
import Verif.Atomic.Props
import Verif.Limit.Handles
import Verif.Limit.LostProps
import Verif.Limit.WeakModel
import Verif.Limit.WeakProps
import Verif.Limit.Progress
import Verif.Pool.Props
import Verif.Pool.LostProps
import Verif.Pool.BoostModel
import Verif.Pool.BoostProps
import Verif.Defer.Props
import Verif.Defer.FlowProps
import Verif.FlexArray.Props
import Verif.FlexArray.ValueProps
import Verif.FlexArray.ThrowModel
import Verif.FlexArray.ThrowProps
import Verif.StaticString.Props
import Verif.StaticString.AccessProps
import Verif.PtrTag.Props
import Verif.PtrTag.TypedProps
import Verif.Variant2.Props
import Verif.Variant2.OpsProps
import Verif.Variant2.Std
import Verif.Inplace.Props
import Verif.OptMinMax.Props
import Verif.OptMinMax.Effects
import Verif.OptMinMax.EffectsProps
import Verif.Pipeline.Model
import Verif.Pipeline.Lemmas
import Verif.Pipeline.Inv
import Verif.Pipeline.Pres
import Verif.Pipeline.Inside
import Verif.Pipeline.Props
import Verif.Pipeline.Bound
import Verif.Workers.Model
import Verif.Workers.Inv
import Verif.Workers.Pres
import Verif.Workers.Props
import Verif.Workers.Bound
import Verif.Relay.Model
import Verif.Relay.Inv
import Verif.Relay.Pres
import Verif.Relay.Props
import Verif.Channel.Destroy
import Verif.Channel.DestroyProps
import Verif.Exchange.Destroy
import Verif.Exchange.DestroyProps
import Verif.Pipeline.Destroy
import Verif.StdInt.Props
import Verif.Net.Model
import Verif.Net.Abstract
import Verif.Net.Inv
import Verif.Net.Props
import Verif.Net.EndProps
import Verif.Net.CapProps
import Verif.Net.TreeProps
import Verif.Net.NeedProps
import Verif.Multi.Model
import Verif.Multi.Spec
import Verif.Multi.Did
import Verif.Multi.Sim
import Verif.Multi.Solo
import Verif.Multi.Doze
import Verif.Multi.Props
import Verif.Multi.LostProps
import Verif.Multi.EndProps
import Verif.MultiX.Model
import Verif.MultiX.Spec
import Verif.MultiX.Taint
import Verif.MultiX.Did
import Verif.MultiX.Sim
import Verif.MultiX.Solo
import Verif.MultiX.Doze
import Verif.MultiX.Lose
import Verif.MultiX.Props
import Verif.MultiX.EndProps
import Verif.Mixed.Model
import Verif.Mixed.Spec
import Verif.Mixed.Did
import Verif.Mixed.Sim
import Verif.Mixed.Stuck
import Verif.Mixed.SoloC
import Verif.Mixed.SoloX
import Verif.Mixed.Calm
import Verif.Mixed.Doze
import Verif.Mixed.Props
import Verif.Mixed.EndProps
import Verif.NextTo.Props
import Verif.NextTo.DirectProps
import Verif.NextTo.BaseModel
import Verif.NextTo.BaseProps
import Verif.Range.Props
import Verif.RangesAlgo.Props
import Verif.TypeList.Props
import Verif.Integral.Props
import Verif.Integral.VariantProps
import Verif.Layout.Props
import Verif.Control.Props
import Verif.PolyAlloc.Props
import Verif.Containers.Model
import Verif.Compare.Props
import Verif.TupleLife.Props
import Verif.RangesThrow.Props
import Verif.Containers.Props
import Verif.Sandbox.Props
import Verif.Sandbox.Streams
import Verif.Sandbox.StreamProps
import Verif.FmtJoin.Props
import Verif.LazyCond.Props
import Verif.Qualifiers.Props
import Verif.BindFront.Props
import Verif.BindFront.AliasProps
import Verif.Overload.Props
import Verif.Print.Props
import Verif.OffsetPtr.Props
import Verif.Zst.Props
import Verif.IntVariant.Props
import Verif.Range.GenericProps
import Verif.Variant2.AccessProps
import Verif.Variant2.AliasModel
import Verif.Variant2.AliasProps
import Verif.RangesAlgo.EffectProps
import Verif.Inplace.LayoutProps
import Verif.Inplace.AliasModel
import Verif.Inplace.AliasProps
import Verif.NextTo.MakeProps
import Verif.HB.Props
import Verif.HB.Axiomatic
import Verif.Noexcept.Props
import Verif.Noexcept.ThrowProps
import Verif.Traits.Model
import Verif.Traits.Props
import Verif.Exchange.LiveModel
import Verif.Exchange.LiveLemmas
import Verif.Exchange.LiveExec
import Verif.Exchange.LiveProps
import Verif.RangesAlgo.LazyModel
import Verif.RangesAlgo.LazyLemmas
import Verif.RangesAlgo.LazyProps
import Verif.Elements.Model
import Verif.Elements.Lemmas
import Verif.Elements.Pres
import Verif.Elements.Props
import Verif.Elements.Ends
import Verif.Forever.Model
import Verif.Forever.Lemmas
import Verif.Forever.Tables
import Verif.Forever.Props
import Verif.Constexpr.Model
import Verif.Constexpr.Props
import Verif.Constexpr.ValueProps
import Verif.Init.Model
import Verif.Init.Props
import Verif.Init.BraceModel
import Verif.Init.BraceProps
import Verif.Init.TupleModel
import Verif.Init.TupleProps
import Verif.AllocIface.Model
import Verif.AllocIface.Props
import Verif.IterThrow.Model
import Verif.IterThrow.Props
import Verif.LazyCond.Soft
import Verif.Print.LookupModel
import Verif.Print.LookupProps
import Verif.Dangling.Model
import Verif.Dangling.Lemmas
import Verif.Dangling.Loops
import Verif.Dangling.Hist
import Verif.Dangling.Props
import Verif.Macro.Model
import Verif.Macro.Lemmas
import Verif.Macro.Props
import Verif.Conform.IPow
import Verif.Conform.NextTo
import Verif.Conform.Ranges
import Verif.Conform.Containers
import Verif.Conform.Variant2
import Verif.Conform.Channels
import Verif.Conform.Solo
import Verif.Conform.OptMinMax
import Verif.Conform.Limit
import Verif.Conform.Types
import Verif.Conform.Misc
import Verif.Conform.Inplace
import Verif.Reentry.Model
import Verif.Reentry.Lemmas
import Verif.Reentry.Props
import Verif.Layout.SizeProps
import Verif.Binding.Props
import Verif.Examples.Props
import Verif.Conform.Rest
