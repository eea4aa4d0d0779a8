import Verif.Lens.Props
import Verif.LensMove.Props
import Verif.Smart.Props
import Verif.Debugger.Props
import Verif.Tree.Props
import Verif.Tree.Props2
import Verif.Loop.Props
import Verif.Loop.SafeRaceProps
import Verif.Loop.SafeRaceRun
import Verif.Loop.QmlProps
import Verif.Loop.Asio
import Verif.Loop.AsioProps
import Verif.Loop.SdlFps
import Verif.Loop.SdlFpsProps
import Verif.Loop.QtPool
import Verif.Loop.QtPoolProps
import Verif.Debugger.Meta
import Verif.Store.Actors
import Verif.Store.Props14
import Verif.Store.QmlQ
import Verif.Store.Props15
import Verif.Store.SdlQ
import Verif.Store.Props16
import Verif.Store.Paced
import Verif.Store.Props17
import Verif.Store.Nest
import Verif.Store.Props18
import Verif.Util.Match
import Verif.Util.MatchProps
import Verif.Http.Listener
import Verif.Http.ListenerProps
import Verif.Example.Snake
import Verif.Example.SnakeProps
import Verif.Example.Todo
import Verif.Example.TodoProps
import Verif.Example.TodoRedux
import Verif.Example.TodoReduxProps
import Verif.Example.Terminal
import Verif.Example.TerminalProps
import Verif.Store.Pump
import Verif.Store.Props19
import Verif.Example.WindowProps
import Verif.Example.SnakeQml
import Verif.Example.SnakeQmlProps
import Verif.Example.TodoFile
import Verif.Example.TodoFileProps
import Verif.Doc.Widgets
import Verif.Doc.WidgetsProps
import Verif.Doc.Turnstile
import Verif.Doc.TurnstileProps
import Verif.Doc.Identity
import Verif.Doc.IdentityProps
import Verif.Example.PongWindow
import Verif.Example.PongWindowProps
import Verif.Extra.ListedProps
import Verif.Example.TodoQml
import Verif.Example.TodoQmlProps
import Verif.Example.Pong
import Verif.Example.PongProps
import Verif.Config.Build
import Verif.Config.BuildProps
import Verif.Example.PongHit
import Verif.Example.PongHitProps
import Verif.Doc.Modules
import Verif.Doc.ModulesProps
import Verif.Future.Also
import Verif.Doc.Intent
import Verif.Doc.IntentProps
import Verif.Doc.IntentTodos
import Verif.Doc.Session
import Verif.Doc.SessionProps
import Verif.Doc.Tail
import Verif.Doc.TailProps
import Verif.Doc.House
import Verif.Doc.HouseProps
import Verif.Lens.Lift
import Verif.Graph.Props
import Verif.Graph.Props2
import Verif.Graph.Across
import Verif.Graph.Props3
import Verif.Graph.Props4
import Verif.Graph.Props5
import Verif.Graph.Props6
import Verif.Graph.Props7
import Verif.Graph.Copy
import Verif.Graph.Props8
import Verif.Graph.Props10
import Verif.Graph.Props11
import Verif.Graph.Props12
import Verif.Graph.Props13
import Verif.Graph.Cost
import Verif.Graph.Props14
import Verif.Graph.PropsAuto
import Verif.Graph.Props9
import Verif.Graph.Debug
import Verif.Future.Props
import Verif.Future.InlineProps
import Verif.Future.ThreadsProps
import Verif.Store.Props
import Verif.Store.Props2
import Verif.Store.Props3
import Verif.Store.Props4
import Verif.Store.Props5
import Verif.Store.Props6
import Verif.Store.Props7
import Verif.Store.Props8
import Verif.Store.Props9
import Verif.Store.Evaluated
import Verif.Store.Props10
import Verif.Store.Chain
import Verif.Store.Props11
import Verif.Store.SafeQ
import Verif.Store.Props12
import Verif.Store.ManualQ
import Verif.Store.Props13
import Verif.Context.Props
import Verif.Deps.Props
import Verif.Effect.Props
import Verif.Watch.Props
import Verif.Watch.Flat
import Verif.Watch.FlatProps
import Verif.Watch.Twice
import Verif.Watch.Qt
import Verif.Life.Props
import Verif.With.Props
import Verif.Extra.Props
import Verif.Extra.CerealProps
import Verif.Http.Props
import Verif.Http.LiveProps
import Verif.Extra.CamelProps
