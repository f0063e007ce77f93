import Verif.Dom.PositionProps
import Verif.Dom.HistoryProps
import Verif.Dom.DuplicateProps
import Verif.Drop.BlockerProps
import Verif.Drop.DropProps
import Verif.Drop.DropExact
import Verif.Tree.Props
import Verif.Exec.Props
import Verif.Comb.Props
import Verif.Comb.Progress
import Verif.Comb.ExtrasProps
import Verif.Comb.SelectProps
import Verif.Wakers.Props
import Verif.Wakers.Count
import Verif.Arena.Props
import Verif.Cell.Props
import Verif.XBow.Props
import Verif.XBow.DataProps
import Verif.XBow.FollowProps
import Verif.XBow.BytesLink
import Verif.XBow.DeriveExamples
import Verif.Lists.DynamicProps
import Verif.Lists.RenderProps
import Verif.Lists.DiffedProps
import Verif.Lists.ModelProps
import Verif.Lists.ModeledProps
import Verif.Lists.VirtualProps
import Verif.Lists.VirtualGeoProps
import Verif.Lists.VirtualGeoDoc
import Verif.Lists.DynamicWrong
import Verif.Lists.ItemsProps
import Verif.Lists.ItemsExample
import Verif.Events.Props
import Verif.Components.SlotProps
import Verif.Components.DropdownProps
import Verif.Css.Props
import Verif.Nested.Props
import Verif.Nested.Idle
import Verif.App.Props
import Verif.Live.Cell
import Verif.Live.Events
import Verif.Live.Store
import Verif.Live.FullExample
import Verif.Components.ClassesProps
import Verif.Components.ClassesCss
import Verif.Lists.NestProps
import Verif.Lists.NestExample
import Verif.Lists.WorkProps
import Verif.Css.Shipped
import Verif.Apps.CirclesProps
import Verif.Apps.CellsExample
import Verif.Apps.DragExample
import Verif.Apps.TodoExample
import Verif.Apps.CrudProps
import Verif.Whole.Example
import Verif.Live.EveryExample
import Verif.Live.FormExample
import Verif.Apps.FlightExample
import Verif.Apps.PlaygroundExample
import Verif.Apps.ConverterExample
import Verif.Html.Props
import Verif.Apps.CounterExample
import Verif.Apps.Clock
import Verif.Flow.LoginProps
import Verif.Flow.Guide
import Verif.Flow.Slot
import Verif.Apps.Link
import Verif.Apps.LinkSelf
import Verif.Apps.BigListProps
import Verif.Apps.TimerProps
import Verif.Apps.FibonacciProps
import Verif.Live.Sync
import Verif.Live.SyncExample
