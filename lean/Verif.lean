import Verif.Model.Api
import Verif.Model.Arrays
import Verif.Model.Container
import Verif.Model.Convert
import Verif.Model.Copies
import Verif.Model.Edit
import Verif.Model.Equal
import Verif.Model.Files
import Verif.Model.Items
import Verif.Model.Mapping
import Verif.Model.Ops
import Verif.Model.Parser
import Verif.Model.PyList
import Verif.Model.Sequence
import Verif.Model.Source
import Verif.Model.Str
import Verif.Model.Utils
import Verif.Proofs.Above
import Verif.Proofs.AboveData
import Verif.Proofs.AboveEdits
import Verif.Proofs.AppendCases
import Verif.Proofs.AppendErr
import Verif.Proofs.Arrays
import Verif.Proofs.At
import Verif.Proofs.Basic
import Verif.Proofs.Blind
import Verif.Proofs.Build
import Verif.Proofs.CalmCheck
import Verif.Proofs.CalmHead
import Verif.Proofs.Clean
import Verif.Proofs.Consist
import Verif.Proofs.ContWF
import Verif.Proofs.Copies
import Verif.Proofs.CopyData
import Verif.Proofs.Dates
import Verif.Proofs.Deep
import Verif.Proofs.DeepAppend
import Verif.Proofs.DeepEdit
import Verif.Proofs.DictRef
import Verif.Proofs.DictView
import Verif.Proofs.DocBuild
import Verif.Proofs.DocReads
import Verif.Proofs.DocText
import Verif.Proofs.DotAppend
import Verif.Proofs.Dots
import Verif.Proofs.Enough
import Verif.Proofs.EntryText
import Verif.Proofs.Escape
import Verif.Proofs.FlatBody
import Verif.Proofs.FlatLines
import Verif.Proofs.FlatOps
import Verif.Proofs.FlatRows
import Verif.Proofs.Found
import Verif.Proofs.Frame
import Verif.Proofs.HeadAny
import Verif.Proofs.Headers
import Verif.Proofs.Hist
import Verif.Proofs.Hush
import Verif.Proofs.InLines
import Verif.Proofs.InTables
import Verif.Proofs.Index
import Verif.Proofs.InlineDeep
import Verif.Proofs.InlineLines
import Verif.Proofs.InlineNear
import Verif.Proofs.InlineOk
import Verif.Proofs.InlineOps
import Verif.Proofs.InlineParsed
import Verif.Proofs.Insert
import Verif.Proofs.Inside
import Verif.Proofs.Keep
import Verif.Proofs.KeepAppend
import Verif.Proofs.KeepDoc
import Verif.Proofs.KeepInline
import Verif.Proofs.KeepPairs
import Verif.Proofs.KeepTables
import Verif.Proofs.KeepValues
import Verif.Proofs.KeptDoc
import Verif.Proofs.Keys
import Verif.Proofs.Leaves
import Verif.Proofs.LineEdit
import Verif.Proofs.LitBuild
import Verif.Proofs.Local
import Verif.Proofs.LocalItems
import Verif.Proofs.LocalRel
import Verif.Proofs.LocalValues
import Verif.Proofs.LockDoc
import Verif.Proofs.LockTables
import Verif.Proofs.Lockstep
import Verif.Proofs.Mapping
import Verif.Proofs.Means
import Verif.Proofs.Near
import Verif.Proofs.NearData
import Verif.Proofs.NearText
import Verif.Proofs.Nests
import Verif.Proofs.Numbers
import Verif.Proofs.Over
import Verif.Proofs.OverEdit
import Verif.Proofs.OverTables
import Verif.Proofs.ParsedFlat
import Verif.Proofs.ParsedLine
import Verif.Proofs.ParsedRows
import Verif.Proofs.ParsedValue
import Verif.Proofs.PlainArray
import Verif.Proofs.Prefix
import Verif.Proofs.Quiet
import Verif.Proofs.QuietDoc
import Verif.Proofs.QuietValues
import Verif.Proofs.ReadDoc
import Verif.Proofs.ReadFloat
import Verif.Proofs.ReadInline
import Verif.Proofs.ReadSubs
import Verif.Proofs.ReadTables
import Verif.Proofs.ReadToml
import Verif.Proofs.ReadTomlDoc
import Verif.Proofs.Reads
import Verif.Proofs.Rekey
import Verif.Proofs.RenderEdit
import Verif.Proofs.Replace
import Verif.Proofs.SameBack
import Verif.Proofs.Sequence
import Verif.Proofs.Sizes
import Verif.Proofs.Skel
import Verif.Proofs.SkelAppend
import Verif.Proofs.SortKeys
import Verif.Proofs.Spine
import Verif.Proofs.Stable
import Verif.Proofs.Steps
import Verif.Proofs.StringInv
import Verif.Proofs.Strings
import Verif.Proofs.Swap
import Verif.Proofs.TableAny
import Verif.Proofs.TableSteps
import Verif.Proofs.Tables
import Verif.Proofs.Tidy
import Verif.Proofs.TidyText
import Verif.Proofs.TomlDates
import Verif.Proofs.TomlKeys
import Verif.Proofs.TomlNumbers
import Verif.Proofs.TomlStrings
import Verif.Proofs.TomlValues
import Verif.Proofs.Twin
import Verif.Proofs.TwinAppend
import Verif.Proofs.TwinTables
import Verif.Proofs.Union
import Verif.Proofs.UnwrapAll
import Verif.Proofs.UnwrapMore
import Verif.Proofs.Value
import Verif.Proofs.Values
import Verif.Proofs.Within
import Verif.Proofs.WithinData
import Verif.Proofs.WithinDoc
import Verif.Proofs.WithinEdits
import Verif.Proofs.Wp
import Verif.Proofs.Wrap
import Verif.Props.AboveEdits
import Verif.Props.ArrayText
import Verif.Props.Arrays
import Verif.Props.Concat
import Verif.Props.Containers
import Verif.Props.Convert
import Verif.Props.Copies
import Verif.Props.Dates
import Verif.Props.DeepEdits
import Verif.Props.Documents
import Verif.Props.EditText
import Verif.Props.Files
import Verif.Props.FlatEdits
import Verif.Props.Grammar
import Verif.Props.InlineEdits
import Verif.Props.Lossless
import Verif.Props.LosslessToml
import Verif.Props.Mapping
import Verif.Props.Numbers
import Verif.Props.ParsedEdits
import Verif.Props.Parsing
import Verif.Props.PlainArrays
import Verif.Props.Readback
import Verif.Props.Sequence
import Verif.Props.Source
import Verif.Props.StringText
import Verif.Props.Strings
import Verif.Props.Swap
import Verif.Props.TableEdits
import Verif.Props.Union
import Verif.Props.Values
import Verif.Spec.AboveEdit
import Verif.Spec.ArrayOps
import Verif.Spec.Calm
import Verif.Spec.Concat
import Verif.Spec.Containers
import Verif.Spec.Convert
import Verif.Spec.Copies
import Verif.Spec.Dates
import Verif.Spec.DeepEdit
import Verif.Spec.EditText
import Verif.Spec.FlatEdit
import Verif.Spec.Floats
import Verif.Spec.InlineEdit
import Verif.Spec.Kept
import Verif.Spec.Lines
import Verif.Spec.Lists
import Verif.Spec.Mapping
import Verif.Spec.Nest
import Verif.Spec.Numbers
import Verif.Spec.PlainArray
import Verif.Spec.Readable
import Verif.Spec.Sequence
import Verif.Spec.Swap
import Verif.Spec.TableEdit
import Verif.Spec.Text
import Verif.Spec.Toml
import Verif.Spec.TomlDoc
import Verif.Spec.Union
import Verif.Spec.Value
