import Verif.Props.Graph
import Verif.Props.Transaction
import Verif.Props.Nesting
import Verif.Props.Ops
import Verif.Props.Resource
import Verif.Props.Lazy
import Verif.Props.Interval
import Verif.Props.Date
import Verif.Props.Plugin
import Verif.Props.Cli
import Verif.Props.Extension
import Verif.Props.Confine
import Verif.Props.Within
import Verif.Spec.Links
import Verif.Lemmas.Files
import Verif.Props.Links
import Verif.Props.Ids
import Verif.Props.Interleave
import Verif.Props.Cascade
import Verif.Props.Contexts
import Verif.Props.OwnTests
import Verif.Props.Locality
import Verif.Props.Scopes
import Verif.Props.ResLocality
import Verif.Props.History
import Verif.Props.Alike
import Verif.Props.App
import Verif.Spec.ByHand
import Verif.Lemmas.ByHand
import Verif.Lemmas.ByHandRes
import Verif.Lemmas.ByHandRun
import Verif.Lemmas.ByHandAgree
import Verif.Props.ByHand
import Verif.Model.Proxies
import Verif.Spec.Proxies
import Verif.Lemmas.Proxies
import Verif.Props.Proxies
import Verif.Model.Listing
import Verif.Spec.Listing
import Verif.Lemmas.Listing
import Verif.Props.Listing
import Verif.Spec.Private
import Verif.Lemmas.Private
import Verif.Props.Private
import Verif.Props.Inverted
import Verif.Model.Args
import Verif.Spec.Args
import Verif.Lemmas.Args
import Verif.Props.Apart
import Verif.Props.Liveness
import Verif.Props.Log
import Verif.Props.Args
import Verif.Spec.Group
import Verif.Lemmas.Group
import Verif.Props.Group
import Verif.Model.Shell
import Verif.Spec.Shell
import Verif.Props.Shell
import Verif.Model.TreePanics
import Verif.Spec.TreePanics
import Verif.Lemmas.TreePanics
import Verif.Props.TreePanics
import Verif.Spec.TreeWork
import Verif.Lemmas.TreeWork
import Verif.Props.TreeWork
import Verif.Spec.Component
import Verif.Lemmas.Component
import Verif.Props.Component
import Verif.Lemmas.Tame
import Verif.Lemmas.Wild
import Verif.Props.Tame
import Verif.Model.CliLog
import Verif.Spec.CliLog
import Verif.Props.CliLog
import Verif.Model.UserCode
import Verif.Spec.UserCode
import Verif.Lemmas.UserCode
import Verif.Props.UserCode
import Verif.Model.Library
import Verif.Spec.Library
import Verif.Lemmas.Library
import Verif.Props.Library
import Verif.Model.PluginPanics
import Verif.Lemmas.PluginPanics
import Verif.Lemmas.PluginLog
import Verif.Props.PluginOpaque
import Verif.Props.PluginPanics
import Verif.Model.Drops
import Verif.Spec.Drops
import Verif.Lemmas.Drops
import Verif.Props.Drops
import Verif.Spec.Laws
import Verif.Lemmas.Laws
import Verif.Lemmas.LawsSound
import Verif.Lemmas.LawsEach
import Verif.Lemmas.LawsRun
import Verif.Lemmas.LawsNormal
import Verif.Props.Laws
import Verif.Props.Params
import Verif.Spec.Complete
import Verif.Lemmas.Complete
import Verif.Lemmas.CompleteRun
import Verif.Props.Complete
import Verif.Model.Threads
import Verif.Spec.Threads
import Verif.Lemmas.Threads
import Verif.Lemmas.ThreadsRun
import Verif.Props.Threads
import Verif.Model.Usage
import Verif.Model.Fixtures
import Verif.Spec.Usage
import Verif.Spec.Within
import Verif.Spec.Replay
import Verif.Props.Replay
import Verif.Lemmas.Usage
import Verif.Props.Usage
import Verif.Props.Fixtures
import Verif.Props.Holdings
import Verif.Props.OsNames
import Verif.Props.Perms
import Verif.Props.Nest
import Verif.Props.Unwind
import Verif.Props.Checks
import Verif.Props.Changes
import Verif.Props.PathOrder
import Verif.Props.Rename
import Verif.Props.Opaque
import Verif.Props.Reorder
import Verif.Props.TreeOpaque
import Verif.Props.Moved
