import Verif.Go.Basic
import Verif.Go.Lemmas
import Verif.Go.Regexp
import Verif.Go.RegexpLemmas
import Verif.Pep440.Model
import Verif.Pep440.Spec
import Verif.Pep440.Order
import Verif.Pep440.Parse
import Verif.Pep440.RoundTrip
import Verif.Pep440.CaseSpace
import Verif.Pep440.PropsOrder
import Verif.Pep440.Specifier
import Verif.Pep440.PropsSpecifier
import Verif.Pep440.PropsSelect
import Verif.Pep440.PropsSpecParse
import Verif.Pep440.PropsExact
import Verif.Go.Strings
import Verif.Pep345.Model
import Verif.Pep345.Props
import Verif.Pep425.Model
import Verif.Pep425.Props
import Verif.Bdist.Filename
import Verif.Bdist.FilenameLemmas
import Verif.Bdist.NameSpec
import Verif.Bdist.PropsFilename
import Verif.Go.Path
import Verif.Go.PathLemmas
import Verif.Repo.Model
import Verif.Repo.Spec
import Verif.Repo.PropsClient
import Verif.Repo.PropsHtml
import Verif.Go.Sort
import Verif.Repo.PropsSelect
import Verif.Squash.Model
import Verif.Squash.Spec
import Verif.Squash.FSLemmas
import Verif.Squash.Inv
import Verif.Squash.InvGet
import Verif.Squash.Fuel
import Verif.Squash.PropsTree
import Verif.Squash.PropsRead
import Verif.Squash.PropsReadDir
import Verif.Squash.PropsLookup
import Verif.Squash.Exact
import Verif.Squash.ViewSpec
import Verif.Squash.View
import Verif.Squash.PropsView
import Verif.Squash.Act
import Verif.Squash.Whole
import Verif.Squash.OutAct
import Verif.Squash.PropsWhole
import Verif.Go.PathDir
import Verif.Fsutil.Model
import Verif.Fsutil.Spec
import Verif.Fsutil.Order
import Verif.Fsutil.PropsRefs
import Verif.Fsutil.PropsDiff
import Verif.Fsutil.PropsDir
import Verif.Python.Stat
import Verif.Python.PropsStat
import Verif.Python.PropsStatBits
import Verif.Python.Config
import Verif.Python.ConfigSpec
import Verif.Python.ConfigLemmas
import Verif.Python.ConfigRun
import Verif.Python.PropsConfig
import Verif.Python.ConfigSplitSpec
import Verif.Python.PropsConfigSplit
import Verif.Python.ConfigInlineSpec
import Verif.Python.PropsConfigInline
import Verif.Python.Interpolate
import Verif.Python.InterpolateSpec
import Verif.Python.PropsInterpolate
import Verif.Python.PropsInterpolateMerge
import Verif.Python.ConfigMergeSpec
import Verif.Python.PropsConfigMerge
import Verif.Cli.Wrap
import Verif.Cli.PropsWrap
import Verif.Cli.PropsWidth
import Verif.Cli.Now
import Verif.Cli.PropsNow
import Verif.Cli.Image
import Verif.Cli.PropsImage
import Verif.Python.Platform
import Verif.Python.PropsPlatform
import Verif.Python.Inspect
import Verif.Python.PropsInspect
import Verif.Python.Json
import Verif.Python.PropsJson
import Verif.Go.Map
import Verif.Bdist.Zip
import Verif.Bdist.PropsZip
import Verif.Bdist.Install
import Verif.Bdist.PropsEntry
import Verif.Bdist.PropsParents
import Verif.Bdist.Spread
import Verif.Python.PropsPlatformInit
import Verif.Bdist.Good
import Verif.Bdist.PropsLayer
import Verif.Bdist.Runner
import Verif.Bdist.PropsInside
import Verif.Bdist.Sample
import Verif.Bdist.PropsBad
import Verif.Bdist.Orders
import Verif.Bdist.PropsOrder
import Verif.Bdist.PropsInstalled
import Verif.Bdist.PropsVerified
import Verif.Go.RegexpLang
import Verif.Bdist.Hooks
import Verif.Bdist.RecordLemmas
import Verif.Bdist.PropsRecord
import Verif.Bdist.FuncRef
import Verif.Bdist.PropsScripts
import Verif.Python.PropsDirectUrl
import Verif.Bdist.Command
import Verif.Bdist.CommandLemmas
import Verif.Bdist.PropsCommand
import Verif.Bdist.PropsHooks
import Verif.Bdist.ExtCompile
import Verif.Bdist.ExtLemmas
import Verif.Bdist.PropsExternal
import Verif.Repo.Client
import Verif.Repo.PropsGetwheel
import Verif.Python.InspectCmd
import Verif.Python.PropsInspectCmd
import Verif.Squash.Follow
import Verif.Squash.PropsFollow
import Verif.Squash.Through
import Verif.Squash.Dangling
import Verif.Squash.PropsThrough
import Verif.Python.ImageFs
import Verif.Python.PropsImageFs
import Verif.Squash.Ends
import Verif.Squash.PropsEnds
import Verif.Gobuild.Model
import Verif.Gobuild.Props
import Verif.Gobuild.PropsCommand
import Verif.Cli.Docker
import Verif.Cli.PropsDocker
import Verif.Cli.Files
import Verif.Cli.PropsFiles
import Verif.Image.Added
import Verif.Image.Props
import Verif.Image.PropsWheel
import Verif.Pep440.Grammar
import Verif.Pep440.GrammarMatch
import Verif.Pep440.GrammarParse
import Verif.Pep440.GrammarNormal
import Verif.Pep440.PropsGrammar
import Verif.Pep440.GrammarSpecifier
import Verif.Pep440.PropsSpecGrammar
import Verif.Squash.HardSpec
import Verif.Squash.Hard
import Verif.Squash.PropsHard
import Verif.Squash.PropsHardRead
import Verif.Image.PropsExtract
import Verif.Cli.Cobra
import Verif.Cli.CobraSpec
import Verif.Cli.PropsCobra
import Verif.Cli.Values
import Verif.Cli.PropsValues
import Verif.Cli.Write
import Verif.Cli.PropsWrite
import Verif.Squash.Shape
import Verif.Squash.PropsResolved
import Verif.Repo.PropsOrder
import Verif.Testutil.Quick
import Verif.Testutil.PropsQuick
import Verif.Pep345.PropsGrammar
import Verif.Go.Csv
import Verif.Go.CsvSpec
import Verif.Go.PropsCsv
import Verif.Go.PropsCsvExact
import Verif.Bdist.PropsRecordText
import Verif.Image.Complete
import Verif.Image.PropsComplete
import Verif.Image.PropsReach
import Verif.Pep440.Generate
import Verif.Pep440.PropsGenerate
import Verif.Squash.Share
import Verif.Squash.PropsShare
import Verif.Pep440.PropsQueries
import Verif.Python.ImageOnce
import Verif.Python.PropsImageOnce
import Verif.Squash.Alias
import Verif.Squash.PropsAlias
import Verif.Squash.WalkDir
import Verif.Squash.PropsWalkDir
import Verif.Go.Encode
import Verif.Go.PropsEncode
import Verif.Bdist.PropsBinding
import Verif.Squash.Stream
import Verif.Squash.PropsStream
import Verif.Go.Tar
import Verif.Go.PropsTar
import Verif.Squash.PropsTarNames
import Verif.Squash.Lazy
import Verif.Squash.LazyLemmas
import Verif.Squash.LazyMaps
import Verif.Squash.PropsLazy
import Verif.Python.PlatformFile
import Verif.Python.PlatformFileLemmas
import Verif.Python.PlatformFileSlots
import Verif.Python.PropsPlatformFile
import Verif.Squash.PropsSource
import Verif.Fsutil.Handles
import Verif.Fsutil.HandlesLemmas
import Verif.Fsutil.PropsHandles
import Verif.Squash.PropsSteps
import Verif.Squash.PropsGlobal
import Verif.Python.CmdAlias
import Verif.Python.PropsCmdAlias
import Verif.Fsutil.Crash
import Verif.Fsutil.CrashSpec
import Verif.Fsutil.CrashLemmas
import Verif.Fsutil.PropsCrash
import Verif.Repo.PropsIrrelevant
import Verif.Repo.Warn
import Verif.Repo.PropsWarn
import Verif.Squash.OverlapSpec
import Verif.Squash.PropsOverlap
import Verif.Image.PropsWheels
import Verif.Image.Squashed
import Verif.Image.PropsSquashed
import Verif.Fsutil.FaultsLemmas
import Verif.Fsutil.PropsFaults
import Verif.Pep440.PropsWide
import Verif.Testutil.Diff
import Verif.Testutil.PropsDiff
import Verif.Pep440.PropsOperators
import Verif.Pep440.PropsPrint
import Verif.Cli.Help
import Verif.Cli.PropsHelp
import Verif.Cli.PropsHelpWidth
import Verif.Fsutil.PropsPrefix
import Verif.Bdist.PropsFilenameExact
import Verif.Squash.PropsReadDirFails
import Verif.Pep440.PropsGoString
import Verif.Pep440.PropsSpecWide
import Verif.Pep345.PropsGrammarWide
import Verif.Pep440.PropsExclusive
import Verif.Gobuild.PropsCopy
import Verif.Fsutil.PropsComplete
import Verif.Bdist.PropsSound
import Verif.Bdist.PropsSoundExt
