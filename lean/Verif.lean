import Verif.Py.Str
import Verif.Lemmas.Str
import Verif.Model.Names
import Verif.Spec.Names
import Verif.Lemmas.Names
import Verif.Props.Names
import Verif.Model.Config
import Verif.Spec.Config
import Verif.Props.Config
import Verif.Py.Val
import Verif.Model.Range
import Verif.Model.Restricted
import Verif.Spec.Range
import Verif.Lemmas.Range
import Verif.Spec.Restricted
import Verif.Lemmas.Restricted
import Verif.Props.Restricted
import Verif.Model.Scalar
import Verif.Spec.Scalar
import Verif.Lemmas.Scalar
import Verif.Props.Scalar
import Verif.Model.LeafList
import Verif.Spec.LeafList
import Verif.Lemmas.LeafList
import Verif.Props.LeafList
import Verif.Model.YList
import Verif.Spec.YList
import Verif.Lemmas.YList
import Verif.Props.YList
import Verif.Model.Tree
import Verif.Spec.Tree
import Verif.Lemmas.Tree
import Verif.Lemmas.TreeFlat
import Verif.Lemmas.TreeInv
import Verif.Lemmas.TreePoint
import Verif.Model.Get
import Verif.Spec.Get
import Verif.Lemmas.Get
import Verif.Spec.Copy
import Verif.Lemmas.Copy
import Verif.Props.Tree
import Verif.Model.LeafCls
import Verif.Props.LeafCls
import Verif.Py.Dict
import Verif.Model.Identity
import Verif.Spec.Identity
import Verif.Lemmas.Identity
import Verif.Lemmas.Inherit
import Verif.Props.Identity
import Verif.Model.Typedef
import Verif.Spec.Typedef
import Verif.Lemmas.Typedef
import Verif.Lemmas.TDefault
import Verif.Lemmas.TChain
import Verif.Props.Typedef
import Verif.Model.XPath
import Verif.Spec.XPath
import Verif.Lemmas.XPathText
import Verif.Lemmas.XPathEval
import Verif.Lemmas.XPathState
import Verif.Lemmas.XPathReg
import Verif.Lemmas.XPathOps
import Verif.Lemmas.XPathMore
import Verif.Lemmas.XPathParts
import Verif.Model.LeafRef
import Verif.Spec.LeafRef
import Verif.Props.XPath
import Verif.Model.Json
import Verif.Model.Ietf
import Verif.Spec.Json
import Verif.Lemmas.Ietf
import Verif.Lemmas.IetfList
import Verif.Model.JsonLeaf
import Verif.Spec.JsonTypes
import Verif.Lemmas.JsonTypes
import Verif.Lemmas.LeafInv
import Verif.Lemmas.Reach
import Verif.Model.DecText
import Verif.Lemmas.DecText
import Verif.Props.Json
import Verif.Spec.JsonDoc
import Verif.Lemmas.JsonDoc
import Verif.Props.JsonDoc
import Verif.Spec.JsonUnknown
import Verif.Lemmas.JsonUnknown
import Verif.Props.JsonUnknown
import Verif.Model.Native
import Verif.Spec.Native
import Verif.Spec.NativeOrder
import Verif.Lemmas.Native
import Verif.Lemmas.NativeList
import Verif.Lemmas.NativeTypes
import Verif.Lemmas.NativeOrder
import Verif.Props.Native
import Verif.Spec.Overwrite
import Verif.Lemmas.Overwrite
import Verif.Lemmas.OverwriteIetf
import Verif.Props.Overwrite
import Verif.Props.Dumps
import Verif.Props.TreeKeys
import Verif.Spec.Regex
import Verif.Lemmas.Regex
import Verif.Props.Regex
import Verif.Model.Xml
import Verif.Spec.Xml
import Verif.Spec.XmlTypes
import Verif.Spec.XmlDoc
import Verif.Lemmas.Xml
import Verif.Lemmas.XmlList
import Verif.Lemmas.XmlTypes
import Verif.Lemmas.XmlDoc
import Verif.Props.Xml
import Verif.Spec.Session
import Verif.Lemmas.LoadInv
import Verif.Props.Session
import Verif.Lemmas.KeyInv
import Verif.Props.SessionKeys
import Verif.Spec.NativeUnknown
import Verif.Lemmas.NativeUnknown
import Verif.Props.NativeUnknown
import Verif.Spec.NativeDoc
import Verif.Lemmas.NativeDoc
import Verif.Props.NativeDoc
import Verif.Spec.Loaded
import Verif.Lemmas.Loaded
import Verif.Lemmas.LoadedCheck
import Verif.Props.Loaded
import Verif.Spec.NativeLoaded
import Verif.Lemmas.NativeLoaded
import Verif.Lemmas.NativeLoadedCheck
import Verif.Props.NativeLoaded
import Verif.Spec.XmlLoaded
import Verif.Lemmas.XmlLoaded
import Verif.Lemmas.XmlLoadedCheck
import Verif.Props.XmlLoaded
import Verif.Model.IdentityLeaf
import Verif.Spec.IdentityLeaf
import Verif.Lemmas.IdentityLeaf
import Verif.Props.IdentityLeaf
import Verif.Model.Gen
import Verif.Spec.Gen
import Verif.Lemmas.Gen
import Verif.Props.Gen
import Verif.Spec.Query
import Verif.Lemmas.Query
import Verif.Lemmas.QueryEval
import Verif.Props.Query
import Verif.Spec.Written
import Verif.Lemmas.Written
import Verif.Props.Written
import Verif.Spec.UnionDoc
import Verif.Lemmas.UnionDoc
import Verif.Props.UnionDoc
import Verif.Props.DumpOpt
import Verif.Model.Reg
import Verif.Spec.Reg
import Verif.Lemmas.Reg
import Verif.Lemmas.RegKids
import Verif.Lemmas.RegList
import Verif.Lemmas.RegRun
import Verif.Lemmas.RegLate
import Verif.Lemmas.RegRoot
import Verif.Props.Reg
import Verif.Spec.ListErr
import Verif.Props.ListErr
import Verif.Model.DecRange
import Verif.Spec.DecRange
import Verif.Lemmas.DecRange
import Verif.Lemmas.DecNum
import Verif.Props.DecRange
import Verif.Model.DecLayer
import Verif.Props.DecLayer
import Verif.Props.DecDoc
import Verif.Props.BinLen
import Verif.Lemmas.ExtTypes
import Verif.Props.ExtDoc
import Verif.Model.Notes
import Verif.Spec.Notes
import Verif.Lemmas.Notes
import Verif.Lemmas.NotesAt
import Verif.Lemmas.NotesKeep
import Verif.Props.Notes
import Verif.Props.DecAssign
import Verif.Model.ExtMethods
import Verif.Props.ExtMethods
import Verif.Py.Literal
import Verif.Lemmas.Literal
import Verif.Model.GenText
import Verif.Spec.GenText
import Verif.Lemmas.GenText
import Verif.Props.GenText
import Verif.Model.GenValue
import Verif.Spec.GenValue
import Verif.Lemmas.GenValue
import Verif.Props.GenValue
import Verif.Model.Split
import Verif.Spec.Split
import Verif.Lemmas.Split
import Verif.Props.Split
import Verif.Model.Collect
import Verif.Spec.Collect
import Verif.Lemmas.Collect
import Verif.Props.Collect
import Verif.Model.UnionDefault
import Verif.Spec.UnionDefault
import Verif.Lemmas.UnionDefault
import Verif.Props.UnionDefault
import Verif.Model.RefDoc
import Verif.Spec.RefDoc
import Verif.Lemmas.RefDoc
import Verif.Props.RefDoc
import Verif.Model.JsonText
import Verif.Spec.JsonText
import Verif.Lemmas.JsonText
import Verif.Lemmas.JsonTextDoc
import Verif.Props.JsonText
import Verif.Lemmas.UnionList
import Verif.Props.UnionList
import Verif.Model.TypeBuild
import Verif.Spec.TypeBuild
import Verif.Lemmas.TypeBuild
import Verif.Props.TypeBuild
import Verif.Model.XmlText
import Verif.Spec.XmlText
import Verif.Lemmas.XmlText
import Verif.Lemmas.XmlTextDoc
import Verif.Props.XmlText
import Verif.Model.Calls
import Verif.Spec.Calls
import Verif.Lemmas.Calls
import Verif.Lemmas.CallsDoc
import Verif.Lemmas.CallsFill
import Verif.Props.Calls
import Verif.Spec.Save
import Verif.Lemmas.Save
import Verif.Props.Save
import Verif.Spec.SaveXml
import Verif.Lemmas.SaveXml
import Verif.Props.SaveXml
import Verif.Props.NotesOver
import Verif.Model.Shared
import Verif.Spec.Shared
import Verif.Lemmas.Shared
import Verif.Props.Shared
import Verif.Model.Root
import Verif.Lemmas.Root
import Verif.Props.Root
import Verif.Spec.SaveNative
import Verif.Lemmas.SaveNative
import Verif.Props.SaveNative
import Verif.Model.BitsTree
import Verif.Spec.BitsTree
import Verif.Lemmas.BitsTree
import Verif.Props.BitsTree
import Verif.Spec.Base64
import Verif.Props.Base64
import Verif.Model.GetList
import Verif.Props.GetList
import Verif.Lemmas.BitsSession
import Verif.Props.BitsSession
import Verif.Spec.JsonRfc
import Verif.Lemmas.JsonRfc
import Verif.Props.JsonRfc
import Verif.Model.ClassNs
import Verif.Spec.ClassNs
import Verif.Props.ClassNs
import Verif.Model.SetAttr
import Verif.Props.SetAttr
import Verif.Model.Rpc
import Verif.Spec.Rpc
import Verif.Props.Rpc
import Verif.Model.RpcDoc
import Verif.Props.RpcDoc
import Verif.Model.ObjPath
import Verif.Spec.ObjPath
import Verif.Props.ObjPath
import Verif.Model.Extensions
import Verif.Props.Extensions
import Verif.Props.ObjPathHist
import Verif.Props.ObjFound
import Verif.Props.XmlRef
import Verif.Props.UnionDefaultNone
import Verif.Props.UnionDefaultEnum
import Verif.Model.RegAnon
import Verif.Props.RegAnon
import Verif.Spec.IntText
import Verif.Props.IntText
import Verif.Spec.IntegerPart
import Verif.Props.IntegerPart
import Verif.Props.GenLine
import Verif.Spec.DecimalText
import Verif.Props.DecimalText
import Verif.Props.DecLayerText
import Verif.Props.UnionDefaultId
import Verif.Props.UnionDefaultRef
