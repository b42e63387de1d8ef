import Verif.Base
import Verif.Val
import Verif.TreeInv
import Verif.Reader
import Verif.Reach
import Verif.Translate
import Verif.Proto
import Verif.Float
import Verif.Zera.Model
import Verif.Zera.Lemmas
import Verif.Zera.Repr
import Verif.Zera.Sim
import Verif.Zera.Size
import Verif.Zera.Safety
import Verif.Zera.Det
import Verif.Props.Zera
import Verif.MsgPack.Model
import Verif.Props.Float
import Verif.Props.Translate
import Verif.MsgPack.Format
import Verif.MsgPack.Skip
import Verif.MsgPack.Agree
import Verif.MsgPack.Contain
import Verif.MsgPack.Write
import Verif.MsgPack.Term
import Verif.MsgPack.Safe
import Verif.Props.MsgPack
import Verif.Base64.Model
import Verif.Base64.Lemmas
import Verif.Props.Base64
import Verif.Cbor.Model
import Verif.Each
import Verif.Cbor.Format
import Verif.Cbor.Skip
import Verif.Cbor.Agree
import Verif.Cbor.Contain
import Verif.Cbor.Write
import Verif.Cbor.Safe
import Verif.Cbor.Term
import Verif.Cbor.Unique
import Verif.Props.Cbor
import Verif.Json.Model
import Verif.Json.Sim
import Verif.Json.Write
import Verif.Json.Agree
import Verif.Json.Toy
import Verif.Props.Json
import Verif.Determined
import Verif.Flex.Doc
import Verif.Flex.Format
import Verif.Flex.Model
import Verif.Flex.Search
import Verif.Flex.Write
import Verif.Flex.Agree
import Verif.Flex.Key
import Verif.Flex.Sim
import Verif.Flex.Layout
import Verif.Flex.Build
import Verif.Flex.Trans
import Verif.Flex.Any
import Verif.Props.Flex
import Verif.Dyn.Model
import Verif.Dyn.Calls
import Verif.Dyn.Builder
import Verif.Props.Dyn
import Verif.Tensor.Model
import Verif.Tensor.Lemmas
import Verif.Tensor.Proto
import Verif.Tensor.Invert
import Verif.Props.Tensor
import Verif.Buffer.Model
import Verif.Buffer.Lemmas
import Verif.Buffer.Observe
import Verif.Buffer.Hex
import Verif.Buffer.Readers
import Verif.Props.Buffer
import Verif.Props.Life
import Verif.Text.Model
import Verif.Text.Spec
import Verif.Text.Unique
import Verif.Text.MsgPack
import Verif.Text.Cbor
import Verif.Text.Flex
import Verif.Props.Text
import Verif.Json.Heap
import Verif.Json.Borrow
import Verif.Json.Dangling
import Verif.Props.Borrow
import Verif.Catch.Basic
import Verif.Catch.Zera
import Verif.Catch.Json
import Verif.Catch.Others
import Verif.Props.Catch
import Verif.Buffer.Roots
import Verif.Props.Roots
import Verif.Prefix.Basic
import Verif.Prefix.MsgPack
import Verif.Prefix.Cbor
import Verif.Prefix.Zera
import Verif.Prefix.Extend
import Verif.Props.Prefix
import Verif.Props.Extend
import Verif.Lookup
import Verif.Props.Lookup
import Verif.Amplify
import Verif.Props.Amplify
import Verif.Sound
import Verif.Props.Sound
import Verif.Depth.MsgPack
import Verif.Depth.Cbor
import Verif.Depth.Translate
import Verif.Depth.Zera
import Verif.Props.Depth
import Verif.Narrow
import Verif.Typed
import Verif.TypedProto
import Verif.Props.Typed
import Verif.Memory
import Verif.Props.Memory
import Verif.Cost.Basic
import Verif.Cost.MsgPack
import Verif.Cost.MsgPackEnc
import Verif.Cost.Cbor
import Verif.Cost.CborLook
import Verif.Cost.CborItem
import Verif.Props.Cost
import Verif.Json.Utf8
import Verif.Json.Number
import Verif.Json.Grammar
import Verif.Json.Print
import Verif.Props.JsonText
import Verif.Flex.Behind
import Verif.Cbor.Behind
import Verif.MsgPack.Behind
import Verif.Zera.Behind
import Verif.Props.Behind
import Verif.Flex.Within
import Verif.Props.Within
import Verif.Transcode
import Verif.Props.Transcode
import Verif.Props.Shortest
import Verif.Zera.Spec
import Verif.Zera.Conform
import Verif.Props.ZeraFormat
import Verif.MsgPack.Exact
import Verif.Cbor.Exact
import Verif.Cbor.Dialect
import Verif.Props.Exact
import Verif.Json.Pretty
import Verif.Props.TextJson
import Verif.Flex.Spec
import Verif.Flex.Read
import Verif.Flex.Present
import Verif.Props.FlexFormat
import Verif.Text.Dump
import Verif.Text.DumpUnique
import Verif.Props.Dump
import Verif.Cost.Light
import Verif.Cost.Flex
import Verif.Cost.Zera
import Verif.Props.Look
import Verif.Listing
import Verif.Props.Listing
import Verif.Props.Size
import Verif.Props.Errors
import Verif.Props.Normal
import Verif.Settle
import Verif.Props.Settle
import Verif.Props.Nested
import Verif.Props.Aligned
import Verif.Props.Accept
import Verif.Props.Hostile
import Verif.Props.Null
import Verif.Props.Arrived
import Verif.Props.Route
import Verif.Props.Patch
import Verif.Props.Splice
import Verif.Props.Lazy
import Verif.Props.Program
import Verif.Props.Evolve
import Verif.Props.Literal
import Verif.Props.Journey
import Verif.Props.Owning
import Verif.Props.JsonKeys
import Verif.Props.LazyText
import Verif.Props.Hosts
import Verif.Props.Order
import Verif.Props.Promise
import Verif.Props.PromiseMore
import Verif.Props.PromiseZera
import Verif.Props.PromiseKeys
import Verif.Props.Again
import Verif.Props.Parts
import Verif.Conform
import Verif.Audit
