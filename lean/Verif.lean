import Verif.Py
import Verif.Bits
import Verif.DictLemmas
import Verif.Cbor
import Verif.CborLemmas
import Verif.CborFuel
import Verif.CborPy
import Verif.Registry
import Verif.Crypto
import Verif.Key
import Verif.Alg
import Verif.Header
import Verif.Messages
import Verif.Context
import Verif.Recipient
import Verif.Multi
import Verif.Spec
import Verif.SpecLemmas
import Verif.RegLemmas
import Verif.HdrLemmas
import Verif.DecodeLemmas
import Verif.EncodeLemmas
import Verif.Props.Samples
import Verif.Props.Tbs
import Verif.Props.Registry
import Verif.Props.Header
import Verif.Props.Decode
import Verif.Wire
import Verif.SpecNumber
import Verif.SpecKeys
import Verif.Props.RoundTrip
import Verif.RcptLemmas
import Verif.EphemLemmas
import Verif.WrapLemmas
import Verif.RcptListLemmas
import Verif.Props.Recipients
import Verif.Props.Policy
import Verif.Props.Nonce
import Verif.Props.Structure
import Verif.Props.Keys
import Verif.Props.KeyWire
import Verif.Props.KeyAgain
import Verif.Props.Integrity
import Verif.Base64
import Verif.Props.Base64
import Verif.X509
import Verif.Props.X509
import Verif.Props.Kdf
import Verif.SignHeap
import Verif.CborStable
import Verif.Props.SignHeap
import Verif.Props.Reencode
import Verif.Props.ReencodeWrap
import Verif.Props.Forward
import Verif.Props.Secrecy
import Verif.Props.RcptRules
import Verif.KeyImport
import Verif.Props.KeyImport
import Verif.MsgObj
import Verif.Props.MsgObj
import Verif.KeyObj
import Verif.Props.KeyObj
import Verif.Repr
import Verif.Props.Repr
import Verif.Props.RcptAccept
import Verif.Props.RcptField
import Verif.Props.Fresh
import Verif.Props.AgreePolicy
import Verif.Props.Reuse
import Verif.Props.Effects
import Verif.Props.Primitives
import Verif.Props.Verdict
import Verif.Props.Accept
import Verif.Props.Independent
import Verif.Props.IndependentMac
import Verif.Props.Iana
import Verif.Raise
import Verif.RaiseLemmas
import Verif.Props.Raise
import Verif.Props.Encodable
import Verif.Props.Exact
import Verif.AttrReg
import Verif.Props.Attrs
import Verif.Props.AttrsCopy
import Verif.Props.Errors
import Verif.RcptHeap
import Verif.RcptHeapLemmas
import Verif.Props.RcptHeap
import Verif.Cek
import Verif.Props.Cek
import Verif.Props.ReprText
import Verif.Props.Written
import Verif.Props.Utf8
import Verif.Props.Usage
import Verif.Props.Refusals
import Verif.Props.RefusalsRcpt
import Verif.Props.RefusalsAgree
import Verif.Props.RefusalsMulti
import Verif.Props.Details
import Verif.Props.Details2
import Verif.Props.Details3
import Verif.Props.KeyTwice
import Verif.Props.Details4
import Verif.Props.KeyAdmit
import Verif.Props.KeyAdmitDict
import Verif.Props.DecodeRefusals
import Verif.ObjHeap
import Verif.ObjHeapSpec
import Verif.ObjHeapLemmas
import Verif.ObjHeapLemmas2
import Verif.Props.ObjHeap
import Verif.CtxHeap
import Verif.Props.CtxHeap
import Verif.Props.Details5
import Verif.Props.UnknownMulti
import Verif.KeyHeap
import Verif.KeyHeapLemmas
import Verif.Props.KeyHeap
import Verif.Props.Floats
import Verif.Props.Items
import Verif.Props.Details6
import Verif.Props.Usage2
import Verif.Detached
import Verif.Props.DetachedAny
import Verif.Threads
import Verif.ThreadLemmas
import Verif.ThreadEnc
import Verif.ThreadMix
import Verif.Props.Threads
import Verif.Props.ThreadsMixed
import Verif.Props.Detach
import Verif.Props.Relabel
import Verif.Props.RelabelIv
import Verif.Props.ReencodeLabels
