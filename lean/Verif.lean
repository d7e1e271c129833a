import Verif.Hir.TypeProperties
import Verif.Prelude.MapProperties
import Verif.Prelude.ListProperties
import Verif.Prelude.ValueProperties
import Verif.Runtime.ArcProperties
import Verif.Runtime.StackProperties
import Verif.Runtime.AsyncStackProperties
import Verif.Runtime.RaceProperties
import Verif.Mir.PassProperties
import Verif.Mir.ClosureProperties
import Verif.Mir.LiftingPipeline
import Verif.Mir.RcProperties
import Verif.Parse.OperationProperties
import Verif.Parse.FormatProperties
import Verif.Parse.StringProperties
import Verif.App.FilePathProperties
import Verif.App.PackageProperties
import Verif.Pkg.ByteProperties
import Verif.Pkg.JsonRoundTrip
import Verif.Pkg.FlagProperties
import Verif.Pkg.HtmlProperties
import Verif.Runtime.ThunkProperties
import Verif.Hir.SoundnessProperties
import Verif.Prelude.MapLiteral
import Verif.Prelude.Comprehension
import Verif.Mir.WholeProperties
import Verif.Lower.Properties
import Verif.Names.Properties
import Verif.Names.Visibility
import Verif.Names.Closed
import Verif.Hir.EqualityProperties
import Verif.Hir.HashProperties
import Verif.Grammar.Properties
import Verif.Grammar.ParserProperties
import Verif.Grammar.FormatterExamples
import Verif.Runtime.GraphProperties
import Verif.Runtime.GraphThunk
import Verif.Pkg.Utf8Properties
import Verif.App.BuildProperties
import Verif.App.BuildExamples
import Verif.Mir.TypeProperties
import Verif.Mir.TypeExamples
import Verif.Mir.TypeIdProperties
import Verif.Lower.InformationProperties
import Verif.Lower.TypedSamples
import Verif.Lower.ReflectProperties
import Verif.Front.Examples
import Verif.Front.Whole
import Verif.Tests.Examples
import Verif.Front.Ends
import Verif.Doc.Examples
import Verif.App.FilesExamples
import Verif.Core.NumbersExamples
import Verif.Core.ListsProperties
import Verif.Tests.AssertProperties
import Verif.Pkg.BoundaryProperties
import Verif.App.OsPathProperties
import Verif.Pkg.NativeAnyProperties
import Verif.Pkg.FileIoProperties
import Verif.Hir.MainFunctionProperties
import Verif.Lower.CollectionsProperties
